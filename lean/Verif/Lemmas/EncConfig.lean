import Verif.Model.EncConfigSpec
import Mathlib.Data.List.Induction
import Mathlib.Data.List.Nodup
import Mathlib.Data.List.Sort
import Mathlib.Data.List.Perm.Basic

/-!
# Lemmas for the configuration of the pytket encoder and decoder
-/

namespace Tket.EncConfig

/-! ## Registration -/

/-- The positions of a list at which `p` holds. -/
def positions {α : Type} (p : α → Bool) (l : List α) : List Nat :=
  (List.range l.length).filter fun i => (l[i]?).any p

theorem positions_concat {α : Type} (p : α → Bool) (l : List α) (x : α) :
    positions p (l ++ [x]) = positions p l ++ if p x then [l.length] else [] := by
  simp only [positions, List.length_append, List.length_singleton, List.range_succ, List.filter_append]
  congr 1
  · apply List.filter_congr
    intro i hi
    rw [List.getElem?_append_left (List.mem_range.1 hi)]
  · cases h : p x <;> simp [h]

theorem push_foldl (idx : Nat) (es : List Nat) (m : Nat → List Nat) (x : Nat) :
    es.foldl (push idx) m x = m x ++ List.replicate (es.count x) idx := by
  induction es generalizing m with
  | nil => simp
  | cons e es ih =>
    rw [List.foldl_cons, ih]
    by_cases h : x = e
    · subst h; simp [push, List.replicate_succ]
    · have h' : ¬ e = x := fun h' => h h'.symm
      simp [push, h, List.count_cons, h']

theorem push_foldl_mem (idx : Nat) (es : List Nat) (m : Nat → List Nat) (x i : Nat) :
    i ∈ es.foldl (push idx) m x ↔ i ∈ m x ∨ (i = idx ∧ x ∈ es) := by
  rw [push_foldl, List.mem_append, List.mem_replicate]
  constructor
  · rintro (h | ⟨h, rfl⟩)
    · exact .inl h
    · exact .inr ⟨rfl, List.count_pos_iff.1 (Nat.pos_of_ne_zero h)⟩
  · rintro (h | ⟨rfl, h⟩)
    · exact .inl h
    · exact .inr ⟨Nat.ne_of_gt (List.count_pos_iff.2 h), rfl⟩

theorem build_concat {σ : Type} (es : List (Emitter σ)) (e : Emitter σ) : build (es ++ [e]) = (build es).add e := by
  simp [build]

theorem build_emitters {σ : Type} (es : List (Emitter σ)) : (build es).emitters = es := by
  induction es using List.reverseRecOn with
  | nil => rfl
  | append_singleton es e ih =>
    rw [build_concat, Config.add]
    cases e.exts <;> simp [ih]

theorem build_generic {σ : Type} (es : List (Emitter σ)) : (build es).generic = positions Emitter.forAll es := by
  induction es using List.reverseRecOn with
  | nil => rfl
  | append_singleton es e ih =>
    rw [build_concat, positions_concat, Config.add, build_emitters]
    cases h : e.exts <;> simp [ih, Emitter.forAll, h]

theorem build_byExt {σ : Type} (es : List (Emitter σ)) (h : ∀ e ∈ es, e.Proper) (x : Nat) :
    (build es).byExt x = positions (·.declares x) es := by
  induction es using List.reverseRecOn with
  | nil => rfl
  | append_singleton es e ih =>
    have ih := ih fun e he => h e (List.mem_append_left _ he)
    have hp : e.Proper := h e (by simp)
    rw [build_concat, positions_concat, Config.add, build_emitters]
    cases he : e.exts with
    | none => simp [ih, Emitter.declares, he]
    | some l =>
      simp only [Emitter.declares, he, push_foldl, ih]
      congr 1
      by_cases hx : x ∈ l
      · rw [List.count_eq_one_of_mem (hp l he) hx]; simp [hx]
      · rw [List.count_eq_zero_of_not_mem hx]; simp [hx]

theorem build_mem_byExt {σ : Type} (es : List (Emitter σ)) (x i : Nat) :
    i ∈ (build es).byExt x ↔ i ∈ positions (·.declares x) es := by
  induction es using List.reverseRecOn with
  | nil => rfl
  | append_singleton es e ih =>
    rw [build_concat, positions_concat, Config.add, build_emitters]
    cases he : e.exts with
    | none => simp [ih, Emitter.declares, he]
    | some l =>
      simp only [Emitter.declares, he, push_foldl_mem, ih, List.mem_append]
      by_cases hx : x ∈ l <;> simp [hx]

/-- Elements at positions. -/
def getL {α : Type} (l : List α) : List Nat → Option (List α)
  | [] => some []
  | i :: is =>
    match l[i]? with
    | none => none
    | some e => (getL l is).map (e :: ·)

theorem getL_append {α : Type} (l : List α) (is js : List Nat) (a b : List α) (ha : getL l is = some a)
    (hb : getL l js = some b) : getL l (is ++ js) = some (a ++ b) := by
  induction is generalizing a with
  | nil => cases ha; exact hb
  | cons i is ih =>
    simp only [getL, List.cons_append] at ha ⊢
    cases hi : l[i]? with
    | none => rw [hi] at ha; cases ha
    | some e =>
      rw [hi] at ha
      cases hs : getL l is with
      | none => rw [hs] at ha; cases ha
      | some a' =>
        rw [hs] at ha
        cases ha
        simp [ih a' hs]

theorem getL_longer {α : Type} (l r : List α) (is : List Nat) (a : List α) (ha : getL l is = some a) :
    getL (l ++ r) is = some a := by
  induction is generalizing a with
  | nil => exact ha
  | cons i is ih =>
    simp only [getL] at ha ⊢
    cases hi : l[i]? with
    | none => rw [hi] at ha; cases ha
    | some e =>
      rw [hi] at ha
      have hlt : i < l.length := (List.getElem?_eq_some_iff.1 hi).1
      rw [List.getElem?_append_left hlt, hi]
      cases hs : getL l is with
      | none => rw [hs] at ha; cases ha
      | some a' =>
        rw [hs] at ha
        cases ha
        simp [ih a' hs]

theorem getL_positions {α : Type} (p : α → Bool) (l : List α) : getL l (positions p l) = some (l.filter p) := by
  induction l using List.reverseRecOn with
  | nil => rfl
  | append_singleton l x ih =>
    rw [positions_concat, List.filter_append]
    refine getL_append _ _ _ _ _ (getL_longer _ _ _ _ ih) ?_
    cases h : p x
    · simp [getL, h]
    · simp [getL, h]

theorem config_get {σ : Type} (c : Config σ) (is : List Nat) : c.get is = getL c.emitters is := by
  induction is with
  | nil => rfl
  | cons i is ih => simp only [Config.get, getL, ih]; cases c.emitters[i]? <;> rfl

theorem dconfig_get {σ : Type} (c : DConfig σ) (is : List Nat) : c.get is = getL c.decoders is := by
  induction is with
  | nil => rfl
  | cons i is ih => simp only [DConfig.get, getL, ih]; cases c.decoders[i]? <;> rfl

theorem mem_insertSet (i j : Nat) (l : List Nat) : j ∈ insertSet i l ↔ j = i ∨ j ∈ l := by
  induction l with
  | nil => simp [insertSet]
  | cons k l ih =>
    simp only [insertSet]
    by_cases h : i < k
    · simp [h]
    · by_cases h2 : i = k
      · subst h2; simp
      · rw [if_neg h, if_neg h2, List.mem_cons, ih, List.mem_cons]
        constructor
        · rintro (h | h | h)
          · exact .inr (.inl h)
          · exact .inl h
          · exact .inr (.inr h)
        · rintro (h | h | h)
          · exact .inr (.inl h)
          · exact .inl h
          · exact .inr (.inr h)

theorem insertSet_sorted (i : Nat) (l : List Nat) (h : l.Pairwise (· < ·)) : (insertSet i l).Pairwise (· < ·) := by
  induction l with
  | nil => simp [insertSet]
  | cons k l ih =>
    rw [List.pairwise_cons] at h
    simp only [insertSet]
    by_cases h1 : i < k
    · rw [if_pos h1, List.pairwise_cons]
      refine ⟨?_, List.pairwise_cons.2 h⟩
      intro j hj
      rcases List.mem_cons.1 hj with rfl | hj
      · exact h1
      · exact Nat.lt_trans h1 (h.1 j hj)
    · by_cases h2 : i = k
      · rw [if_neg h1, if_pos h2]; exact List.pairwise_cons.2 h
      · rw [if_neg h1, if_neg h2, List.pairwise_cons]
        refine ⟨?_, ih h.2⟩
        intro j hj
        rcases (mem_insertSet i j l).1 hj with rfl | hj
        · omega
        · exact h.1 j hj

theorem toSet_spec (l : List Nat) : (toSet l).Pairwise (· < ·) ∧ ∀ i, i ∈ toSet l ↔ i ∈ l := by
  have : ∀ (l acc : List Nat), acc.Pairwise (· < ·) →
      (l.foldl (fun s i => insertSet i s) acc).Pairwise (· < ·) ∧
        ∀ i, i ∈ l.foldl (fun s i => insertSet i s) acc ↔ i ∈ acc ∨ i ∈ l := by
    intro l
    induction l with
    | nil => intro acc h; exact ⟨h, by simp⟩
    | cons k l ih =>
      intro acc h
      obtain ⟨h1, h2⟩ := ih (insertSet k acc) (insertSet_sorted k acc h)
      refine ⟨h1, fun i => ?_⟩
      rw [List.foldl_cons, h2, mem_insertSet, List.mem_cons]
      constructor
      · rintro ((h | h) | h)
        · exact .inr (.inl h)
        · exact .inl h
        · exact .inr (.inr h)
      · rintro (h | h | h)
        · exact .inl (.inr h)
        · exact .inl (.inl h)
        · exact .inr h
  obtain ⟨h1, h2⟩ := this l [] List.Pairwise.nil
  exact ⟨h1, fun i => by rw [toSet, h2]; simp⟩

theorem eq_of_sorted (a b : List Nat) (ha : a.Pairwise (· < ·)) (hb : b.Pairwise (· < ·))
    (h : ∀ i, i ∈ a ↔ i ∈ b) : a = b := by
  induction a generalizing b with
  | nil =>
    cases b with
    | nil => rfl
    | cons j b => exact absurd ((h j).2 (List.mem_cons_self ..)) (by simp)
  | cons i a ih =>
    cases b with
    | nil => exact absurd ((h i).1 (List.mem_cons_self ..)) (by simp)
    | cons j b =>
      rw [List.pairwise_cons] at ha hb
      have hij : i = j := by
        rcases List.mem_cons.1 ((h i).1 (List.mem_cons_self ..)) with e | e
        · exact e
        · rcases List.mem_cons.1 ((h j).2 (List.mem_cons_self ..)) with e' | e'
          · exact e'.symm
          · have := ha.1 j e'; have := hb.1 i e; omega
      subst hij
      congr 1
      refine ih b ha.2 hb.2 fun k => ?_
      constructor
      · intro hk
        have := ha.1 k hk
        rcases List.mem_cons.1 ((h k).1 (List.mem_cons_of_mem _ hk)) with e | e
        · omega
        · exact e
      · intro hk
        have := hb.1 k hk
        rcases List.mem_cons.1 ((h k).2 (List.mem_cons_of_mem _ hk)) with e | e
        · omega
        · exact e

theorem positions_sorted {α : Type} (p : α → Bool) (l : List α) : (positions p l).Pairwise (· < ·) :=
  List.Pairwise.filter _ List.pairwise_lt_range

theorem mem_positions {α : Type} (p : α → Bool) (l : List α) (i : Nat) :
    i ∈ positions p l ↔ ∃ x, l[i]? = some x ∧ p x = true := by
  simp only [positions, List.mem_filter, List.mem_range]
  constructor
  · rintro ⟨h, hp⟩
    rw [List.getElem?_eq_getElem h] at hp ⊢
    exact ⟨_, rfl, by simpa using hp⟩
  · rintro ⟨x, hx, hp⟩
    exact ⟨(List.getElem?_eq_some_iff.1 hx).1, by rw [hx]; simpa using hp⟩

theorem dbuild_spec {σ : Type} (ds : List (Decoder σ)) : (dbuild ds).decoders = ds ∧
    ((∀ d ∈ ds, d.types.Nodup) → ∀ t, (dbuild ds).byType t = positions (fun d => d.types.contains t) ds) := by
  induction ds using List.reverseRecOn with
  | nil => exact ⟨rfl, fun _ _ => rfl⟩
  | append_singleton ds d ih =>
    obtain ⟨h1, h2⟩ := ih
    have e : dbuild (ds ++ [d]) = (dbuild ds).add d := by simp [dbuild]
    refine ⟨by rw [e, DConfig.add]; simp [h1], fun h t => ?_⟩
    have h2 := h2 fun d hd => h d (List.mem_append_left _ hd)
    have hp : d.types.Nodup := h d (by simp)
    rw [e, positions_concat, DConfig.add, h1]
    simp only [push_foldl, h2]
    congr 1
    by_cases hx : t ∈ d.types
    · rw [List.count_eq_one_of_mem hp hx]; simp [hx]
    · rw [List.count_eq_zero_of_not_mem hx]; simp [hx]

/-! ## Constants -/

/-- Encoding of a value that the default emitters support. -/
def encodeLeaf : Leaf → State → Vals × State
  | .bool b, s => constBit b s
  | .float e, s => (⟨[], [(newParam e s).1]⟩, (newParam e s).2)
  | .rotation e, s => (⟨[], [(newParam e s).1]⟩, (newParam e s).2)
  | .other _ _, s => (⟨[], []⟩, s)

/-- Supported values. -/
def Leaf.Known : Leaf → Prop
  | .other _ _ => False
  | _ => True

theorem default_leaf (op : Nat → Nat → State → Except Err (Bool × State)) (l : Leaf) (h : l.Known) (s : State) :
    (defaultConfig op).leaf l s = .ok (some (encodeLeaf l s).1, (encodeLeaf l s).2) := by
  cases l with
  | bool b => rfl
  | float e => rfl
  | rotation e => rfl
  | other n es => exact h.elim

/-- The values in the order in which the loop meets them. -/
def order : Nat → List Value → List Leaf
  | _, [] => []
  | 0, _ :: _ => []
  | fuel + 1, v :: queue =>
    match v with
    | .tuple vs => order fuel (queue ++ vs)
    | .ext l => l :: order fuel queue
    | _ => order fuel queue

/-- Encoding values one after the other. -/
def encodeAll : List Leaf → Vals → State → Vals × State
  | [], acc, s => (acc, s)
  | l :: ls, acc, s => encodeAll ls (acc.append (encodeLeaf l s).1) (encodeLeaf l s).2

theorem allPlain_append (a b : List Value) : AllPlain (a ++ b) ↔ AllPlain a ∧ AllPlain b := by
  induction a with
  | nil => simp [AllPlain]
  | cons v a ih => simp [AllPlain, ih, and_assoc]

theorem sizes_append (a b : List Value) : sizes (a ++ b) = sizes a + sizes b := by
  induction a with
  | nil => simp [sizes]
  | cons v a ih => simp only [List.cons_append, sizes, ih]; omega

theorem plain_cases (v : Value) (h : v.Plain) :
    (∃ vs, v = .tuple vs ∧ AllPlain vs) ∨ ∃ l, v = .ext l ∧ l.Known := by
  cases v with
  | bool b => simp [Value.Plain] at h
  | otherSum n => simp [Value.Plain] at h
  | function n => simp [Value.Plain] at h
  | tuple vs => exact .inl ⟨vs, rfl, by simpa [Value.Plain] using h⟩
  | ext l =>
    refine .inr ⟨l, rfl, ?_⟩
    cases l with
    | other n es => simp [Value.Plain] at h
    | _ => trivial

theorem loop_plain (op : Nat → Nat → State → Except Err (Bool × State)) (fuel : Nat) (q : List Value)
    (hq : AllPlain q) (hf : sizes q ≤ fuel) (acc : Vals) (s : State) :
    loop (defaultConfig op) fuel q acc s =
      .ok (some (encodeAll (order fuel q) acc s).1, (encodeAll (order fuel q) acc s).2) := by
  induction fuel generalizing q acc s with
  | zero =>
    cases q with
    | nil => rfl
    | cons v q => cases v <;> simp [sizes, Value.size] at hf
  | succ fuel ih =>
    cases q with
    | nil => rfl
    | cons v q =>
      simp only [AllPlain] at hq
      rcases plain_cases v hq.1 with ⟨vs, rfl, hvs⟩ | ⟨l, rfl, hl⟩
      · simp only [loop, order]
        exact ih _ ((allPlain_append _ _).2 ⟨hq.2, hvs⟩)
          (by rw [sizes_append]; simp only [sizes, Value.size] at hf; omega) acc s
      · simp only [loop, order, default_leaf op l hl, encodeAll]
        exact ih _ hq.2 (by simp only [sizes, Value.size] at hf; omega) _ _

/-- Booleans of a value. -/
def Leaf.bools : Leaf → List Bool
  | .bool b => [b]
  | _ => []

/-- Numbers of a value. -/
def Leaf.exprs : Leaf → List Nat
  | .float e => [e]
  | .rotation e => [e]
  | _ => []

theorem ext_bools (l : Leaf) : (Value.ext l).bools = l.bools := by cases l <;> simp [Value.bools, Leaf.bools]

theorem ext_exprs (l : Leaf) : (Value.ext l).exprs = l.exprs := by cases l <;> simp [Value.exprs, Leaf.exprs]

theorem allBools_append (a b : List Value) : allBools (a ++ b) = allBools a ++ allBools b := by
  induction a with
  | nil => simp [allBools]
  | cons v a ih => simp [allBools, ih]

theorem allExprs_append (a b : List Value) : allExprs (a ++ b) = allExprs a ++ allExprs b := by
  induction a with
  | nil => simp [allExprs]
  | cons v a ih => simp [allExprs, ih]

theorem order_perm (fuel : Nat) (q : List Value) (hq : AllPlain q) (hf : sizes q ≤ fuel) :
    ((order fuel q).flatMap Leaf.bools).Perm (allBools q) ∧
      ((order fuel q).flatMap Leaf.exprs).Perm (allExprs q) ∧ ∀ l ∈ order fuel q, l.Known := by
  induction fuel generalizing q with
  | zero =>
    cases q with
    | nil => simp [order, allBools, allExprs]
    | cons v q => cases v <;> simp [sizes, Value.size] at hf
  | succ fuel ih =>
    cases q with
    | nil => simp [order, allBools, allExprs]
    | cons v q =>
      simp only [AllPlain] at hq
      rcases plain_cases v hq.1 with ⟨vs, rfl, hvs⟩ | ⟨l, rfl, hl⟩
      · obtain ⟨h1, h2, h3⟩ := ih (q ++ vs) ((allPlain_append _ _).2 ⟨hq.2, hvs⟩)
          (by rw [sizes_append]; simp only [sizes, Value.size] at hf; omega)
        simp only [order, allBools, allExprs, Value.bools, Value.exprs]
        rw [allBools_append] at h1
        rw [allExprs_append] at h2
        exact ⟨h1.trans List.perm_append_comm, h2.trans List.perm_append_comm, h3⟩
      · obtain ⟨h1, h2, h3⟩ := ih q hq.2 (by simp only [sizes, Value.size] at hf; omega)
        simp only [order, allBools, allExprs, ext_bools, ext_exprs, List.flatMap_cons]
        refine ⟨h1.append_left _, h2.append_left _, ?_⟩
        intro l' hl'
        rcases List.mem_cons.1 hl' with rfl | hl'
        · exact hl
        · exact h3 l' hl'

theorem order_atoms (fuel : Nat) (q : List Value) (hq : AllPlain q) (ha : ∀ v ∈ q, v.Atom) (hf : sizes q ≤ fuel) :
    (order fuel q).flatMap Leaf.bools = allBools q ∧ (order fuel q).flatMap Leaf.exprs = allExprs q := by
  induction fuel generalizing q with
  | zero =>
    cases q with
    | nil => simp [order, allBools, allExprs]
    | cons v q => cases v <;> simp [sizes, Value.size] at hf
  | succ fuel ih =>
    cases q with
    | nil => simp [order, allBools, allExprs]
    | cons v q =>
      simp only [AllPlain] at hq
      rw [List.forall_mem_cons] at ha
      rcases plain_cases v hq.1 with ⟨vs, rfl, hvs⟩ | ⟨l, rfl, hl⟩
      · exact ha.1.elim
      · obtain ⟨h1, h2⟩ := ih q hq.2 ha.2 (by simp only [sizes, Value.size] at hf; omega)
        simp only [order, allBools, allExprs, ext_bools, ext_exprs, List.flatMap_cons, h1, h2, and_self]

theorem newBit_spec (s : State) (used : List Nat) (h : s.Ok used) :
    (newBit s).1 ∉ used ∧ (newBit s).2.Ok ((newBit s).1 :: used) ∧ (newBit s).2.val = s.val ∧
      (newBit s).2.params = s.params ∧ (s.Reset → s.val (newBit s).1 = false ∧ (newBit s).2.Reset) := by
  cases hu : s.unused with
  | nil =>
    have e : newBit s = (s.numBits, { s with numBits := s.numBits + 1 }) := by simp [newBit, hu]
    rw [e]
    refine ⟨fun hm => absurd (h.used_lt _ hm) (by omega), ⟨h.nodup, ?_, ?_, ?_, ?_⟩, rfl, rfl, fun hr => ⟨?_, hr⟩⟩
    · intro b hb; exact Nat.lt_succ_of_lt (h.unused_lt b hb)
    · intro b hb; simp only [hu] at hb; cases hb
    · intro b hb
      rcases List.mem_cons.1 hb with rfl | hb
      · exact Nat.lt_succ_self _
      · exact Nat.lt_succ_of_lt (h.used_lt b hb)
    · intro b hb; exact h.fresh b (by simp only at hb; omega)
    · exact h.fresh _ (Nat.le_refl _)
  | cons x u =>
    have e : newBit s = (x, { s with unused := u }) := by simp [newBit, hu]
    rw [e]
    have hx : x ∈ s.unused := by rw [hu]; exact List.mem_cons_self ..
    have hsub : ∀ b ∈ u, b ∈ s.unused := fun b hb => by rw [hu]; exact List.mem_cons_of_mem _ hb
    have hn := h.nodup
    rw [hu, List.nodup_cons] at hn
    refine ⟨h.not_used x hx, ⟨hn.2, fun b hb => h.unused_lt b (hsub b hb), ?_, ?_, h.fresh⟩, rfl, rfl,
      fun hr => ⟨hr x hx, fun b hb => hr b (hsub b hb)⟩⟩
    · intro b hb hm
      rcases List.mem_cons.1 hm with rfl | hm
      · exact hn.1 hb
      · exact h.not_used b (hsub b hb) hm
    · intro b hb
      rcases List.mem_cons.1 hb with rfl | hb
      · exact h.unused_lt _ hx
      · exact h.used_lt b hb

theorem constBit_spec (b : Bool) (s : State) (used : List Nat) (h : s.Ok used) (hr : s.Reset) :
    ∃ x, (constBit b s).1 = ⟨[x], []⟩ ∧ x ∉ used ∧ (constBit b s).2.Ok (x :: used) ∧ (constBit b s).2.Reset ∧
      (constBit b s).2.params = s.params ∧ (constBit b s).2.val x = b ∧
      ∀ y, y ≠ x → (constBit b s).2.val y = s.val y := by
  obtain ⟨h1, h2, h3, h4, h5⟩ := newBit_spec s used h
  obtain ⟨h5, h6⟩ := h5 hr
  refine ⟨(newBit s).1, rfl, h1, ?_⟩
  cases b with
  | false =>
    simp only [constBit, Bool.false_eq_true, if_false]
    exact ⟨h2, h6, h4, by rw [h3]; exact h5, fun y _ => by rw [h3]⟩
  | true =>
    simp only [constBit, if_true]
    refine ⟨⟨h2.nodup, h2.unused_lt, h2.not_used, h2.used_lt, ?_⟩, ?_, h4, by simp [setTrue], ?_⟩
    · intro y hy
      have : y ≠ (newBit s).1 := by
        rintro rfl
        have := h2.used_lt _ (List.mem_cons_self ..)
        simp only [setTrue] at hy
        omega
      simp only [setTrue, if_neg this]
      exact h2.fresh y hy
    · intro y hy
      have : y ≠ (newBit s).1 := by
        rintro rfl
        exact h2.not_used _ hy (List.mem_cons_self ..)
      simp only [setTrue, if_neg this]
      exact h6 y hy
    · intro y hy
      simp only [setTrue, if_neg hy, h3]

theorem encodeAll_spec (ls : List Leaf) (hk : ∀ l ∈ ls, l.Known) (acc : Vals) (s : State) (used : List Nat)
    (bs : List Bool) (es : List Nat) (h : s.Ok (acc.bits ++ used)) (hr : s.Reset) (hh : Holds s acc bs es)
    (hd : acc.bits.Nodup) (hu : ∀ b ∈ acc.bits, b ∉ used) :
    let r := encodeAll ls acc s
    Holds r.2 r.1 (bs ++ ls.flatMap Leaf.bools) (es ++ ls.flatMap Leaf.exprs) ∧
      r.2.Ok (r.1.bits ++ used) ∧ r.2.Reset ∧ r.1.bits.Nodup ∧ (∀ b ∈ r.1.bits, b ∉ used) ∧
      (∀ b ∈ used, r.2.val b = s.val b) ∧ s.params <+: r.2.params := by
  induction ls generalizing acc s bs es with
  | nil => simpa [encodeAll] using ⟨hh, h, hr, hd, hu⟩
  | cons l ls ih =>
    rw [List.forall_mem_cons] at hk
    simp only [encodeAll]
    have param : ∀ e, encodeLeaf l s = (⟨[], [(newParam e s).1]⟩, (newParam e s).2) → l.bools = [] → l.exprs = [e] →
        let r := encodeAll ls (acc.append (encodeLeaf l s).1) (encodeLeaf l s).2
        Holds r.2 r.1 (bs ++ (l :: ls).flatMap Leaf.bools) (es ++ (l :: ls).flatMap Leaf.exprs) ∧
          r.2.Ok (r.1.bits ++ used) ∧ r.2.Reset ∧ r.1.bits.Nodup ∧ (∀ b ∈ r.1.bits, b ∉ used) ∧
          (∀ b ∈ used, r.2.val b = s.val b) ∧ s.params <+: r.2.params := by
      intro e he hb hx
      have := ih hk.2 (acc.append ⟨[], [(newParam e s).1]⟩) (newParam e s).2 bs (es ++ [e])
        (by simpa [Vals.append] using ⟨h.nodup, h.unused_lt, h.not_used, h.used_lt, h.fresh⟩) hr
        (by
          refine ⟨by simpa [Vals.append, newParam] using hh.1, ?_⟩
          simp only [Vals.append, List.map_append, List.map_cons, List.map_nil, newParam]
          congr 1
          · rw [← hh.2]
            apply List.map_congr_left
            intro i hi
            have : s.params[i]? ∈ acc.params.map (s.params[·]?) := List.mem_map.2 ⟨i, hi, rfl⟩
            rw [hh.2] at this
            obtain ⟨x, _, hx⟩ := List.mem_map.1 this
            rw [List.getElem?_append_left (List.getElem?_eq_some_iff.1 hx.symm).1]
          · simp)
        (by simpa [Vals.append] using hd) (by simpa [Vals.append] using hu)
      rw [he]
      simp only [List.flatMap_cons, hb, hx, List.nil_append]
      obtain ⟨a1, a2, a3, a4, a5, a6, a7⟩ := this
      refine ⟨by simpa using a1, a2, a3, a4, a5, a6, ?_⟩
      exact (List.prefix_append _ _).trans a7
    cases l with
    | other n es => exact hk.1.elim
    | float e => exact param e rfl rfl rfl
    | rotation e => exact param e rfl rfl rfl
    | bool b =>
      obtain ⟨x, h1, h2, h3, h4, h5, h6, h7⟩ := constBit_spec b s _ h hr
      have hx : x ∉ acc.bits ∧ x ∉ used := by
        rw [List.mem_append] at h2
        exact ⟨fun h => h2 (.inl h), fun h => h2 (.inr h)⟩
      have := ih hk.2 (acc.append ⟨[x], []⟩) (constBit b s).2 (bs ++ [b]) es
        (by
          refine ⟨h3.nodup, h3.unused_lt, ?_, ?_, h3.fresh⟩
          · intro y hy hm
            refine h3.not_used y hy ?_
            simp only [Vals.append, List.mem_append, List.mem_cons, List.not_mem_nil, or_false] at hm ⊢
            rcases hm with (hm | hm) | hm
            · exact .inr (.inl hm)
            · exact .inl hm
            · exact .inr (.inr hm)
          · intro y hm
            refine h3.used_lt y ?_
            simp only [Vals.append, List.mem_append, List.mem_cons, List.not_mem_nil, or_false] at hm ⊢
            rcases hm with (hm | hm) | hm
            · exact .inr (.inl hm)
            · exact .inl hm
            · exact .inr (.inr hm)) h4
        (by
          refine ⟨?_, ?_⟩
          · simp only [Vals.append, List.map_append, List.map_cons, List.map_nil, h6]
            congr 1
            rw [← hh.1]
            apply List.map_congr_left
            intro y hy
            exact h7 y fun e => hx.1 (e ▸ hy)
          · simpa [Vals.append, h5] using hh.2)
        (by
          simp only [Vals.append, List.nodup_append]
          refine ⟨hd, by simp, ?_⟩
          intro a ha b hb
          simp only [List.mem_cons, List.not_mem_nil, or_false] at hb
          subst hb
          exact fun e => hx.1 (e ▸ ha))
        (by
          intro y hy
          simp only [Vals.append, List.mem_append, List.mem_cons, List.not_mem_nil, or_false] at hy
          rcases hy with hy | rfl
          · exact hu y hy
          · exact hx.2)
      have e : encodeLeaf (.bool b) s = (⟨[x], []⟩, (constBit b s).2) := by
        rw [encodeLeaf, ← h1]
      rw [e]
      obtain ⟨a1, a2, a3, a4, a5, a6, a7⟩ := this
      refine ⟨?_, a2, a3, a4, a5, ?_, by rw [← h5]; exact a7⟩
      · simpa [List.flatMap_cons, Leaf.bools, Leaf.exprs] using a1
      · intro y hy
        rw [a6 y hy]
        exact h7 y fun e => hx.2 (e ▸ hy)

end Tket.EncConfig
