import Verif.Model.LazyBoolSpec
import Mathlib.Tactic.Common

/-!
# Replacing operations keeps the values
-/

namespace Verif.LazyBool

variable {W L ν : Type} [DecidableEq ν]

/-! ### Heaps -/

def Ext (H H' : Heap) : Prop := ∀ h b, valOf H h = some b → valOf H' h = some b

theorem Ext.refl (H : Heap) : Ext H H := fun _ _ h => h
theorem Ext.trans {A B C : Heap} (h : Ext A B) (h' : Ext B C) : Ext A C :=
  fun x b hb => h' x b (h x b hb)

theorem valOf_alloc (H : Heap) (b : Bool) : valOf (H ++ [⟨b, 0⟩]) H.length = some b := by
  simp [valOf]

theorem ext_alloc (H : Heap) (b : Bool) : Ext H (H ++ [⟨b, 0⟩]) := by
  intro h c hc
  unfold valOf at *
  by_cases hl : h < H.length
  · rw [List.getElem?_append_left hl]; exact hc
  · rw [List.getElem?_eq_none (by omega)] at hc; simp at hc

theorem consume_ok {H : Heap} {h : Nat} {b : Bool} (hb : valOf H h = some b) :
    ∃ H1, consume H h = some (b, H1) ∧ Ext H H1 := by
  unfold valOf at hb
  unfold consume
  cases hs : H[h]? with
  | none => rw [hs] at hb; simp at hb
  | some s =>
    rw [hs] at hb
    simp only [Option.map_some, Option.some.injEq] at hb
    subst hb
    refine ⟨_, rfl, ?_⟩
    intro x c hc
    unfold valOf at *
    rw [List.getElem?_set]
    by_cases hx : h = x
    · subst hx
      have : h < H.length := by
        by_contra hl
        rw [List.getElem?_eq_none (by omega)] at hs
        simp at hs
      rw [hs] at hc
      simpa [this] using hc
    · simp [hx, hc]

theorem consume_inv {H H1 : Heap} {h : Nat} {b : Bool} (hc : consume H h = some (b, H1)) :
    valOf H h = some b ∧ Ext H H1 := by
  have hv : valOf H h = some b := by
    unfold consume at hc
    unfold valOf
    cases hs : H[h]? with
    | none => rw [hs] at hc; simp at hc
    | some s => rw [hs] at hc; simp at hc; simp [hc.1]
  obtain ⟨H2, h2, h3⟩ := consume_ok hv
  rw [hc] at h2
  simp only [Option.some.injEq, Prod.mk.injEq, true_and] at h2
  subst h2
  exact ⟨hv, h3⟩

/-! ### Outcomes -/

theorem Out.Agree.bind {α β γ δ : Type} {R : α → β → Prop} {S : γ → δ → Prop} {a : Out α} {b : Out β}
    {f : α → Out γ} {g : β → Out δ} (h : Out.Agree R a b)
    (hf : ∀ x y, R x y → Out.Agree S (f x) (g y)) : Out.Agree S (a.bind f) (b.bind g) := by
  cases a <;> cases b <;> simp_all [Out.Agree, Out.bind]

theorem Out.Agree.mono {α β : Type} {R S : α → β → Prop} {a : Out α} {b : Out β}
    (h : Out.Agree R a b) (hf : ∀ x y, R x y → S x y) : Out.Agree S a b := by
  cases a <;> cases b <;> simp_all [Out.Agree]

theorem Out.Agree.stuck {α β : Type} {R : α → β → Prop} {b : Out β} :
    Out.Agree R (Out.stuck : Out α) b := by
  cases b <;> trivial

theorem Out.Agree.ofOption {α β : Type} {R : α → β → Prop} {a : Option α} {b : Option β}
    (h : ∀ x, a = some x → ∃ y, b = some y ∧ R x y) :
    Out.Agree R (Out.ofOption a) (Out.ofOption b) := by
  cases a with
  | none => exact Out.Agree.stuck
  | some x =>
    obtain ⟨y, rfl, hy⟩ := h x rfl
    exact hy

/-! ### The representation -/

mutual
theorem Rep.mono {H H' : Heap} (he : Ext H H') : ∀ {x y : Val}, Rep H x y → Rep H' x y
  | .o b, y, h => by
    unfold Rep at *
    rcases h with h | ⟨i, h1, h2⟩
    · exact .inl h
    · exact .inr ⟨i, h1, he _ _ h2⟩
  | .fut _, _, h => by simp [Rep] at h
  | .lin q, _, h => by simpa [Rep] using h
  | .nat n, _, h => by simpa [Rep] using h
  | .hole, _, h => by simpa [Rep] using h
  | .sum t xs, y, h => by
    unfold Rep at *
    obtain ⟨ys, h1, h2⟩ := h
    exact ⟨ys, h1, RepL.mono he h2⟩
theorem RepL.mono {H H' : Heap} (he : Ext H H') : ∀ {xs ys : List Val}, RepL H xs ys → RepL H' xs ys
  | [], ys, h => by simpa [RepL] using h
  | x :: xs, ys, h => by
    unfold RepL at *
    obtain ⟨y, ys', h1, h2, h3⟩ := h
    exact ⟨y, ys', h1, Rep.mono he h2, RepL.mono he h3⟩
end

mutual
theorem Rep.clean {H : Heap} : ∀ {x y : Val}, Rep H x y → x.clean = true → y = x
  | .o b, y, _, hc => by simp [Val.clean] at hc
  | .fut _, _, h, _ => by simp [Rep] at h
  | .lin q, _, h, _ => by simpa [Rep] using h
  | .nat n, _, h, _ => by simpa [Rep] using h
  | .hole, _, h, _ => by simpa [Rep] using h
  | .sum t xs, y, h, hc => by
    unfold Rep at h
    obtain ⟨ys, rfl, h2⟩ := h
    rw [RepL.clean h2 (by simpa [Val.clean] using hc)]
theorem RepL.clean {H : Heap} : ∀ {xs ys : List Val}, RepL H xs ys → cleanL xs = true → ys = xs
  | [], ys, h, _ => by simpa [RepL] using h
  | x :: xs, ys, h, hc => by
    unfold RepL at h
    obtain ⟨y, ys', rfl, h2, h3⟩ := h
    simp only [cleanL, Bool.and_eq_true] at hc
    rw [Rep.clean h2 hc.1, RepL.clean h3 hc.2]
end

mutual
theorem rep_clean (H : Heap) : ∀ {x : Val}, x.clean = true → Rep H x x
  | .o b, hc => by simp [Val.clean] at hc
  | .fut _, hc => by simp [Val.clean] at hc
  | .lin q, _ => by simp [Rep]
  | .nat n, _ => by simp [Rep]
  | .hole, _ => by simp [Rep]
  | .sum t xs, hc => by
    unfold Rep
    exact ⟨xs, rfl, repL_clean H (by simpa [Val.clean] using hc)⟩
theorem repL_clean (H : Heap) : ∀ {xs : List Val}, cleanL xs = true → RepL H xs xs
  | [], _ => by simp [RepL]
  | x :: xs, hc => by
    simp only [cleanL, Bool.and_eq_true] at hc
    unfold RepL
    exact ⟨x, xs, rfl, rep_clean H hc.1, repL_clean H hc.2⟩
end

mutual
theorem rep_replace (H : Heap) : ∀ {x : Val}, x.noFut = true → Rep H x x.replace
  | .o b, _ => by simp [Rep, Val.replace]
  | .fut _, hc => by simp [Val.noFut] at hc
  | .lin q, _ => by simp [Rep, Val.replace]
  | .nat n, _ => by simp [Rep, Val.replace]
  | .hole, _ => by simp [Rep, Val.replace]
  | .sum t xs, hc => by
    simp only [Rep, Val.replace, Val.sum.injEq, true_and]
    exact ⟨_, rfl, repL_replace H (by simpa [Val.noFut] using hc)⟩
theorem repL_replace (H : Heap) : ∀ {xs : List Val}, noFutL xs = true → RepL H xs (replaceL xs)
  | [], _ => by simp [RepL, replaceL]
  | x :: xs, hc => by
    simp only [noFutL, Bool.and_eq_true] at hc
    unfold RepL replaceL
    exact ⟨_, _, rfl, rep_replace H hc.1, repL_replace H hc.2⟩
end

theorem RepL.length {H : Heap} : ∀ {xs ys : List Val}, RepL H xs ys → ys.length = xs.length
  | [], ys, h => by simp [RepL] at h; simp [h]
  | x :: xs, ys, h => by
    unfold RepL at h
    obtain ⟨y, ys', rfl, _, h3⟩ := h
    simp [RepL.length h3]

theorem RepL.append {H : Heap} : ∀ {xs ys xs' ys' : List Val}, RepL H xs ys → RepL H xs' ys' →
    RepL H (xs ++ xs') (ys ++ ys')
  | [], ys, _, _, h, h' => by simp [RepL] at h; simpa [h] using h'
  | x :: xs, ys, _, _, h, h' => by
    unfold RepL at h
    obtain ⟨y, ys1, rfl, h2, h3⟩ := h
    rw [List.cons_append, RepL]
    exact ⟨y, ys1 ++ _, rfl, h2, RepL.append h3 h'⟩

theorem RepL.get {H : Heap} : ∀ {xs ys : List Val} {i : Nat}, RepL H xs ys →
    (∀ x, xs[i]? = some x → ∃ y, ys[i]? = some y ∧ Rep H x y) ∧ (xs[i]? = none → ys[i]? = none)
  | [], ys, i, h => by simp [RepL] at h; simp [h]
  | x :: xs, ys, i, h => by
    unfold RepL at h
    obtain ⟨y, ys1, rfl, h2, h3⟩ := h
    cases i with
    | zero => simp [h2]
    | succ i => simpa using RepL.get h3

theorem RepL.set {H : Heap} : ∀ {xs ys : List Val} {i : Nat} {x y : Val}, RepL H xs ys → Rep H x y →
    RepL H (xs.set i x) (ys.set i y)
  | [], ys, i, x, y, h, _ => by simp [RepL] at h; simp [h, RepL]
  | x :: xs, ys, i, x', y', h, h' => by
    unfold RepL at h
    obtain ⟨y, ys1, rfl, h2, h3⟩ := h
    cases i with
    | zero => rw [List.set_cons_zero, List.set_cons_zero, RepL]; exact ⟨_, _, rfl, h', h3⟩
    | succ i => rw [List.set_cons_succ, List.set_cons_succ, RepL]; exact ⟨_, _, rfl, h2, h3.set h'⟩

/-- A hole stays a hole, and nothing else becomes one. -/
theorem Rep.hole_iff {H : Heap} {x y : Val} (h : Rep H x y) : x = .hole ↔ y = .hole := by
  cases x <;> simp [Rep] at h
  · rcases h with rfl | ⟨i, rfl, _⟩ <;> simp
  · simp [h]
  · simp [h]
  · simp [h]
  · obtain ⟨ys, rfl, _⟩ := h; simp

theorem Rep.toBool {H : Heap} {x y : Val} {b : Bool} (h : Rep H x y) (hb : x.toBool = some b) :
    y = x := by
  apply h.clean
  unfold Val.toBool at hb
  split at hb <;> simp_all [Val.clean, cleanL]

mutual
/-- Freeing a representation succeeds. -/
theorem free_rep {H : Heap} : ∀ {x y : Val}, Rep H x y → ∃ H1, freeVal y H = some H1 ∧ Ext H H1
  | .o b, y, h => by
    simp only [Rep] at h
    rcases h with rfl | ⟨i, rfl, h2⟩
    · exact ⟨H, by simp [freeVal, freeVals, bool], Ext.refl _⟩
    · obtain ⟨H1, h3, h4⟩ := consume_ok h2
      exact ⟨H1, by simp [freeVal, freeVals, h3], h4⟩
  | .fut _, _, h => by simp [Rep] at h
  | .lin q, y, h => by simp only [Rep] at h; subst h; exact ⟨H, by simp [freeVal], Ext.refl _⟩
  | .nat n, y, h => by simp only [Rep] at h; subst h; exact ⟨H, by simp [freeVal], Ext.refl _⟩
  | .hole, y, h => by simp only [Rep] at h; subst h; exact ⟨H, by simp [freeVal], Ext.refl _⟩
  | .sum t xs, y, h => by
    unfold Rep at h
    obtain ⟨ys, rfl, h2⟩ := h
    obtain ⟨H1, h3, h4⟩ := frees_rep h2
    exact ⟨H1, by simp [freeVal, h3], h4⟩
theorem frees_rep {H : Heap} : ∀ {xs ys : List Val}, RepL H xs ys →
    ∃ H1, freeVals ys H = some H1 ∧ Ext H H1
  | [], ys, h => by simp only [RepL] at h; subst h; exact ⟨H, by simp [freeVals], Ext.refl _⟩
  | x :: xs, ys, h => by
    unfold RepL at h
    obtain ⟨y, ys', rfl, h2, h3⟩ := h
    obtain ⟨H1, h4, h5⟩ := free_rep h2
    obtain ⟨H2, h6, h7⟩ := frees_rep (h3.mono h5)
    exact ⟨H2, by simp [freeVals, h4, h6], h5.trans h7⟩
end

/-! ### Environments -/

omit [DecidableEq ν] in
theorem getAll_rep {H : Heap} {e e' : Env ν}
    (he : ∀ n x, e n = some x → ∃ y, e' n = some y ∧ Rep H x y) {ns : List ν} {vs : List Val}
    (h : getAll e ns = some vs) : ∃ vs', getAll e' ns = some vs' ∧ RepL H vs vs' := by
  induction ns generalizing vs with
  | nil => simp [getAll] at h; subst h; exact ⟨[], rfl, by simp [RepL]⟩
  | cons n ns ih =>
    rw [getAll] at h
    cases hn : e n with
    | none => rw [hn] at h; simp at h
    | some x =>
      rw [hn] at h
      cases hr : getAll e ns with
      | none => rw [hr] at h; simp at h
      | some xs =>
        rw [hr] at h
        simp only [Option.map_some, Option.some.injEq] at h
        subst h
        obtain ⟨y, h1, h2⟩ := he n x hn
        obtain ⟨ys, h3, h4⟩ := ih hr
        refine ⟨y :: ys, by simp [getAll, h1, h3], ?_⟩
        rw [RepL]
        exact ⟨y, ys, rfl, h2, h4⟩

theorem bindAll_rep {H : Heap} {e e' e1 : Env ν} {ns : List (ν × Bool)} {vs vs' : List Val}
    (he : ∀ n x, e n = some x → ∃ y, e' n = some y ∧ Rep H x y) (hv : RepL H vs vs')
    (h : bindAll e ns vs = some e1) :
    ∃ e1', bindAll e' ns vs' = some e1' ∧ ∀ n x, e1 n = some x → ∃ y, e1' n = some y ∧ Rep H x y := by
  induction ns generalizing e e' vs vs' with
  | nil =>
    cases vs with
    | nil =>
      simp only [RepL] at hv
      subst hv
      simp only [bindAll, Option.some.injEq] at h
      subst h
      exact ⟨e', rfl, he⟩
    | cons v vs => simp [bindAll] at h
  | cons n ns ih =>
    obtain ⟨n, lz⟩ := n
    cases vs with
    | nil => simp [bindAll] at h
    | cons v vs =>
      unfold RepL at hv
      obtain ⟨v', vs1, rfl, h1, h2⟩ := hv
      rw [bindAll] at h ⊢
      split at h
      · next hc =>
        have hc' : (lz || v'.clean) = true := by
          cases lz with
          | true => rfl
          | false => simp only [Bool.false_or] at hc ⊢; rw [h1.clean hc]; exact hc
        rw [if_pos hc']
        refine ih ?_ h2 h
        intro m x hm
        split at hm
        · next hmn => simp only [Option.some.injEq] at hm; subst hm; exact ⟨v', by simp [hmn], h1⟩
        · next hmn => simpa [hmn] using he m x hm
      · simp at h

/-! ### Operations -/

def R1 (H : Heap) (r r' : St W × List Val) : Prop :=
  r.1.w = r'.1.w ∧ Ext H r'.1.heap ∧ RepL r'.1.heap r.2 r'.2

theorem repL_nil {H : Heap} : RepL H [] [] := by simp [RepL]
theorem repL_cons {H : Heap} {x y : Val} {xs ys : List Val} (h : Rep H x y) (h' : RepL H xs ys) :
    RepL H (x :: xs) (y :: ys) := by
  rw [RepL]; exact ⟨y, ys, rfl, h, h'⟩
theorem repL_one {H : Heap} {x y : Val} (h : Rep H x y) : RepL H [x] [y] := repL_cons h repL_nil

theorem repL_nil_inv {H : Heap} {ys : List Val} (h : RepL H [] ys) : ys = [] := by simpa [RepL] using h
theorem repL_cons_inv {H : Heap} {x : Val} {xs ys : List Val} (h : RepL H (x :: xs) ys) :
    ∃ y ys', ys = y :: ys' ∧ Rep H x y ∧ RepL H xs ys' := by rwa [RepL] at h
theorem repL_one_inv {H : Heap} {x : Val} {ys : List Val} (h : RepL H [x] ys) :
    ∃ y, ys = [y] ∧ Rep H x y := by
  obtain ⟨y, ys', rfl, h1, h2⟩ := repL_cons_inv h
  exact ⟨y, by rw [repL_nil_inv h2], h1⟩
theorem repL_two_inv {H : Heap} {x x' : Val} {ys : List Val} (h : RepL H [x, x'] ys) :
    ∃ y y', ys = [y, y'] ∧ Rep H x y ∧ Rep H x' y' := by
  obtain ⟨y, ys', rfl, h1, h2⟩ := repL_cons_inv h
  obtain ⟨y', rfl, h3⟩ := repL_one_inv h2
  exact ⟨y, y', rfl, h1, h3⟩

theorem rep_bool (H : Heap) (b : Bool) : Rep H (bool b) (bool b) := rep_clean H (by simp [bool, Val.clean, cleanL])

theorem toBool_bool (b : Bool) : (bool b).toBool = some b := by cases b <;> rfl

theorem toBool_inv {x : Val} {b : Bool} (h : x.toBool = some b) : x = bool b := by
  unfold Val.toBool at h
  split at h <;> simp_all [bool] <;> subst h <;> rfl

theorem Rep.isHole {H : Heap} {x y : Val} (h : Rep H x y) : y.isHole = x.isHole := by
  cases x <;> simp [Rep] at h
  · rcases h with rfl | ⟨i, rfl, _⟩ <;> rfl
  · simp [h]
  · simp [h]
  · simp [h]
  · obtain ⟨ys, rfl, _⟩ := h; rfl

theorem hole_isHole : Val.hole.isHole = true := rfl

theorem clean_of_mem {xs : List Val} (h : cleanL xs = true) {x : Val} (hx : x ∈ xs) : x.clean = true := by
  induction xs with
  | nil => simp at hx
  | cons a as ih =>
    simp only [cleanL, Bool.and_eq_true] at h
    rcases List.mem_cons.mp hx with rfl | h4
    · exact h.1
    · exact ih h.2 h4

/-- Operations that are kept, or replaced by a single operation. -/
theorem opStep_rep {M : Machine W L} {o o' : Op L} (ho : o.source = true) (hl : lowerOp o = .inl o')
    {st st' : St W} (hw : st.w = st'.w) {vs vs' : List Val} (hv : RepL st'.heap vs vs') :
    Out.Agree (R1 st'.heap) (opStep M o st vs) (opStep M o' st' vs') := by
  cases o with
  | read => simp [lowerOp] at hl
  | makeOpaque => simp [lowerOp] at hl
  | bin f => simp [lowerOp] at hl
  | not => simp [lowerOp] at hl
  | measure => simp [lowerOp] at hl
  | measureReset => simp [lowerOp] at hl
  | lazyMeasure => simp [Op.source] at ho
  | lazyMeasureReset => simp [Op.source] at ho
  | futRead => simp [Op.source] at ho
  | copy k => simp [Op.source] at ho
  | const v =>
    simp only [lowerOp, Sum.inl.injEq] at hl
    subst hl
    simp only [opStep]
    split
    · rw [repL_nil_inv hv]
      exact ⟨hw, Ext.refl _, repL_one (rep_replace _ (by simpa [Op.source] using ho))⟩
    · exact Out.Agree.stuck
  | prim l =>
    simp only [lowerOp, Sum.inl.injEq] at hl
    subst hl
    simp only [opStep]
    split
    · next hc =>
      rw [hv.clean hc, if_pos hc, ← hw]
      cases hp : M.prim l st.w vs with
      | none => trivial
      | some r =>
        dsimp only
        split
        · next hr => exact ⟨rfl, Ext.refl _, repL_clean _ hr⟩
        · exact Out.Agree.stuck
    · exact Out.Agree.stuck
  | tag t =>
    simp only [lowerOp, Sum.inl.injEq] at hl
    subst hl
    refine ⟨hw, Ext.refl _, repL_one ?_⟩
    rw [Rep]
    exact ⟨vs', rfl, hv⟩
  | clone lz =>
    simp only [opStep]
    split
    · next v =>
      obtain ⟨y, rfl, h1⟩ := repL_one_inv hv
      cases lz with
      | true => simp [lowerOp] at hl
      | false =>
        simp only [lowerOp, Sum.inl.injEq] at hl
        subst hl
        simp only [Bool.false_or]
        split
        · next hc =>
          rw [h1.clean hc, if_pos hc]
          exact ⟨hw, Ext.refl _, repL_clean _ (by simp [cleanL, hc])⟩
        · exact Out.Agree.stuck
    · exact Out.Agree.stuck
  | discard lz =>
    simp only [opStep]
    split
    · next v =>
      obtain ⟨y, rfl, h1⟩ := repL_one_inv hv
      cases lz with
      | true =>
        simp only [lowerOp, Sum.inl.injEq] at hl
        subst hl
        simp only [Bool.true_or, if_true]
        obtain ⟨H1, h2, h3⟩ := free_rep h1
        rw [h2]
        exact ⟨hw, h3, repL_nil⟩
      | false =>
        simp only [lowerOp, Sum.inl.injEq] at hl
        subst hl
        simp only [Bool.false_or]
        split
        · next hc =>
          rw [h1.clean hc, if_pos hc]
          exact ⟨hw, Ext.refl _, repL_nil⟩
        · exact Out.Agree.stuck
    · exact Out.Agree.stuck
  | get lz size =>
    cases lz with
    | true => simp [lowerOp] at hl
    | false =>
      simp only [lowerOp, Sum.inl.injEq] at hl
      subst hl
      simp only [opStep]
      split
      · next xs i =>
        obtain ⟨y, z, rfl, h1, h2⟩ := repL_two_inv hv
        simp only [Bool.false_or]
        split
        · next hc =>
          rw [h1.clean (by simp [Val.clean, hc.2]), h2.clean (by simp [Val.clean])]
          show Out.Agree _ _ (if _ then _ else _)
          rw [if_pos hc]
          unfold getElem
          cases hx : xs[i]? with
          | none => exact ⟨hw, Ext.refl _, repL_clean _ (by simp [cleanL, Val.clean, hc.2])⟩
          | some x =>
            dsimp only
            split
            · trivial
            · exact ⟨hw, Ext.refl _, repL_clean _ (by
                simp [cleanL, Val.clean, hc.2, clean_of_mem hc.2 (List.mem_of_getElem? hx)])⟩
        · exact Out.Agree.stuck
      · exact Out.Agree.stuck
  | borrow =>
    simp only [lowerOp, Sum.inl.injEq] at hl
    subst hl
    simp only [opStep]
    split
    · next xs i =>
      obtain ⟨y, z, rfl, h1, h2⟩ := repL_two_inv hv
      simp only [Rep] at h1 h2
      obtain ⟨ys, rfl, h1⟩ := h1
      subst h2
      obtain ⟨g1, g2⟩ := h1.get (i := i)
      show Out.Agree _ (borrowElem st xs i) (borrowElem st' ys i)
      unfold borrowElem
      cases hx : xs[i]? with
      | none => rw [g2 hx]; trivial
      | some x =>
        obtain ⟨y, h3, h4⟩ := g1 x hx
        rw [h3]
        dsimp only
        rw [h4.isHole]
        split
        · trivial
        · exact ⟨hw, Ext.refl _, repL_cons (by rw [Rep]; exact ⟨_, rfl, h1.set (by simp [Rep])⟩)
            (repL_one h4)⟩
    · exact Out.Agree.stuck
  | giveBack =>
    simp only [lowerOp, Sum.inl.injEq] at hl
    subst hl
    simp only [opStep]
    split
    · next xs i x =>
      obtain ⟨y, ys, rfl, h1, h2⟩ := repL_cons_inv hv
      obtain ⟨z, x', rfl, h2, h3⟩ := repL_two_inv h2
      simp only [Rep] at h1 h2
      obtain ⟨ys, rfl, h1⟩ := h1
      subst h2
      obtain ⟨g1, g2⟩ := h1.get (i := i)
      show Out.Agree _ (returnElem st xs i x) (returnElem st' ys i x')
      unfold returnElem
      cases hx : xs[i]? with
      | none => rw [g2 hx]; trivial
      | some x0 =>
        obtain ⟨y, h4, h5⟩ := g1 x0 hx
        rw [h4]
        dsimp only
        rw [h5.isHole]
        split
        · exact ⟨hw, Ext.refl _, repL_one (by rw [Rep]; exact ⟨_, rfl, h1.set h3⟩)⟩
        · trivial
    · exact Out.Agree.stuck
  | drop =>
    simp only [lowerOp, Sum.inl.injEq] at hl
    subst hl
    simp only [opStep]
    split
    · next v =>
      obtain ⟨y, rfl, h1⟩ := repL_one_inv hv
      obtain ⟨H1, h2, h3⟩ := free_rep h1
      dsimp only
      rw [h2]
      cases freeVal v st.heap with
      | none => exact Out.Agree.stuck
      | some H => exact ⟨hw, h3, repL_nil⟩
    · exact Out.Agree.stuck
  | lbin f =>
    simp only [lowerOp, Sum.inl.injEq] at hl
    subst hl
    simp only [opStep]
    split
    · next x y =>
      obtain ⟨x', y', rfl, h1, h2⟩ := repL_two_inv hv
      dsimp only
      cases ha : x.toBool with
      | none => exact Out.Agree.stuck
      | some a =>
        rw [h1.toBool ha, ha]
        cases hb : y.toBool with
        | none => exact Out.Agree.stuck
        | some b =>
          rw [h2.toBool hb, hb]
          exact ⟨hw, Ext.refl _, repL_one (rep_bool _ _)⟩
    · exact Out.Agree.stuck
  | lnot =>
    simp only [lowerOp, Sum.inl.injEq] at hl
    subst hl
    simp only [opStep]
    split
    · next x =>
      obtain ⟨x', rfl, h1⟩ := repL_one_inv hv
      dsimp only
      cases ha : x.toBool with
      | none => exact Out.Agree.stuck
      | some a =>
        rw [h1.toBool ha, ha]
        exact ⟨hw, Ext.refl _, repL_one (rep_bool _ _)⟩
    · exact Out.Agree.stuck
  | ilt n =>
    simp only [lowerOp, Sum.inl.injEq] at hl
    subst hl
    simp only [opStep]
    split
    · next i =>
      obtain ⟨x', rfl, h1⟩ := repL_one_inv hv
      simp only [Rep] at h1
      subst h1
      exact ⟨hw, Ext.refl _, repL_one (rep_bool _ _)⟩
    · exact Out.Agree.stuck

/-- Reading in a template. -/
theorem readCases_rep (M : Machine W L) (callee : Key → St W → List Val → Out (St W × List Val))
    {st : St W} {b : Bool} {y : Val} (h : Rep st.heap (.o b) y) :
    ∃ t xs H, y = .sum t xs ∧ Ext st.heap H ∧
      execCase M callee readCases t st xs = .ok (⟨st.w, H⟩, [bool b]) := by
  simp only [Rep] at h
  rcases h with rfl | ⟨i, rfl, h2⟩
  · refine ⟨0, _, st.heap, rfl, Ext.refl _, ?_⟩
    simp [readCases, execCase, bindAll, exec, getAll, Out.ofOption, Out.bind, Val.clean, cleanL, bool]
  · obtain ⟨H1, h3, h4⟩ := consume_ok h2
    refine ⟨1, _, H1, rfl, h4, ?_⟩
    simp [readCases, execCase, bindAll, exec, getAll, Out.ofOption, Out.bind, Val.clean, cleanL, bool,
      opStep, h3]

theorem clean_bool (b : Bool) : (bool b).clean = true := by simp [bool, Val.clean, cleanL]

/-- Operations that are replaced by a graph. -/
theorem template_rep {M : Machine W L} {o : Op L} {bins : List (Nat × Bool)} {b : Body Nat L}
    (hl : lowerOp o = .inr (bins, b)) (callee : Key → St W → List Val → Out (St W × List Val))
    {st st' : St W} (hw : st.w = st'.w) {vs vs' : List Val} (hv : RepL st'.heap vs vs') :
    Out.Agree (R1 st'.heap) (opStep M o st vs)
      ((Out.ofOption (bindAll noNames bins vs')).bind fun e => exec M callee b e st') := by
  cases o with
  | const v => simp [lowerOp] at hl
  | prim l => simp [lowerOp] at hl
  | tag t => simp [lowerOp] at hl
  | borrow => simp [lowerOp] at hl
  | giveBack => simp [lowerOp] at hl
  | drop => simp [lowerOp] at hl
  | lbin f => simp [lowerOp] at hl
  | lnot => simp [lowerOp] at hl
  | ilt n => simp [lowerOp] at hl
  | lazyMeasure => simp [lowerOp] at hl
  | lazyMeasureReset => simp [lowerOp] at hl
  | futRead => simp [lowerOp] at hl
  | copy k => simp [lowerOp] at hl
  | discard lz => cases lz <;> simp [lowerOp] at hl
  | read =>
    simp only [lowerOp, Sum.inr.injEq, Prod.mk.injEq] at hl
    obtain ⟨rfl, rfl⟩ := hl
    simp only [opStep]
    split
    · next a =>
      obtain ⟨y, rfl, h1⟩ := repL_one_inv hv
      obtain ⟨t, xs, H, rfl, h2, h3⟩ := readCases_rep M callee h1
      simp only [bindAll, Bool.true_or, if_true, Out.ofOption, Out.bind, readDest, exec, getAll,
        Option.map_some, List.append_nil, h3, clean_bool, Bool.or_true, ↓reduceIte]
      exact ⟨hw, h2, repL_one (rep_bool _ _)⟩
    · exact Out.Agree.stuck
  | makeOpaque =>
    simp only [lowerOp, Sum.inr.injEq, Prod.mk.injEq] at hl
    obtain ⟨rfl, rfl⟩ := hl
    simp only [opStep]
    split
    · next v =>
      obtain ⟨y, rfl, h1⟩ := repL_one_inv hv
      cases ha : v.toBool with
      | none => exact Out.Agree.stuck
      | some a =>
        rw [h1.toBool ha, toBool_inv ha]
        simp only [bindAll, Out.ofOption, Out.bind, makeOpaqueDest, exec, getAll,
          Option.map_some, clean_bool, Bool.or_true, ↓reduceIte, opStep, Bool.true_or]
        exact ⟨hw, Ext.refl _, repL_one (by simp [Rep])⟩
    · exact Out.Agree.stuck
  | bin f =>
    simp only [lowerOp, Sum.inr.injEq, Prod.mk.injEq] at hl
    obtain ⟨rfl, rfl⟩ := hl
    simp only [opStep]
    split
    · next a a' =>
      obtain ⟨y, y', rfl, h1, h1'⟩ := repL_two_inv hv
      obtain ⟨t, xs, H, rfl, h2, h3⟩ := readCases_rep M callee h1
      obtain ⟨t', xs', H', rfl, h4, h5⟩ := readCases_rep (st := ⟨st'.w, H⟩) M callee (h1'.mono h2)
      simp [bindAll, Out.ofOption, Out.bind, binDest, exec, getAll,
        clean_bool, opStep, h3, h5, toBool_bool]
      exact ⟨hw, h2.trans h4, repL_one (by simp [Rep])⟩
    · exact Out.Agree.stuck
  | not =>
    simp only [lowerOp, Sum.inr.injEq, Prod.mk.injEq] at hl
    obtain ⟨rfl, rfl⟩ := hl
    simp only [opStep]
    split
    · next a =>
      obtain ⟨y, rfl, h1⟩ := repL_one_inv hv
      obtain ⟨t, xs, H, rfl, h2, h3⟩ := readCases_rep M callee h1
      simp [bindAll, Out.ofOption, Out.bind, notDest, exec, getAll,
        clean_bool, opStep, h3, toBool_bool]
      exact ⟨hw, h2, repL_one (by simp [Rep])⟩
    · exact Out.Agree.stuck
  | measure =>
    simp only [lowerOp, Sum.inr.injEq, Prod.mk.injEq] at hl
    obtain ⟨rfl, rfl⟩ := hl
    simp only [opStep]
    split
    · next q =>
      obtain ⟨y, rfl, h1⟩ := repL_one_inv hv
      simp only [Rep] at h1
      subst h1
      simp [bindAll, Out.ofOption, Out.bind, measureDest, exec, getAll, opStep, Val.clean]
      rw [← hw]
      refine ⟨rfl, ext_alloc _ _, repL_one ?_⟩
      simp only [Rep]
      exact .inr ⟨_, rfl, valOf_alloc _ _⟩
    · exact Out.Agree.stuck
  | measureReset =>
    simp only [lowerOp, Sum.inr.injEq, Prod.mk.injEq] at hl
    obtain ⟨rfl, rfl⟩ := hl
    simp only [opStep]
    split
    · next q =>
      obtain ⟨y, rfl, h1⟩ := repL_one_inv hv
      simp only [Rep] at h1
      subst h1
      simp [bindAll, Out.ofOption, Out.bind, measureResetDest, exec, getAll, opStep, Val.clean]
      rw [← hw]
      refine ⟨rfl, ext_alloc _ _, repL_cons (by simp [Rep]) (repL_one ?_)⟩
      simp only [Rep]
      exact .inr ⟨_, rfl, valOf_alloc _ _⟩
    · exact Out.Agree.stuck
  | clone lz =>
    cases lz with
    | false => simp [lowerOp] at hl
    | true =>
      simp only [lowerOp, Sum.inr.injEq, Prod.mk.injEq] at hl
      obtain ⟨rfl, rfl⟩ := hl
      simp only [opStep]
      split
      · next v =>
        obtain ⟨y, rfl, h1⟩ := repL_one_inv hv
        simp [bindAll, Out.ofOption, Out.bind, copyDest, exec, getAll]
        exact ⟨hw, Ext.refl _, repL_cons h1 (repL_one h1)⟩
      · exact Out.Agree.stuck
  | get lz size =>
    cases lz with
    | false => simp [lowerOp] at hl
    | true =>
      simp only [lowerOp, Sum.inr.injEq, Prod.mk.injEq] at hl
      obtain ⟨rfl, rfl⟩ := hl
      simp only [opStep]
      split
      · next xs i =>
        obtain ⟨y, z, rfl, h1, h2⟩ := repL_two_inv hv
        simp only [Rep] at h1 h2
        obtain ⟨ys, rfl, h1⟩ := h1
        subst h2
        split
        · next hc =>
          obtain ⟨g1, g2⟩ := h1.get (i := i)
          have hr : Rep st'.heap (.sum 0 xs) (.sum 0 ys) := by rw [Rep]; exact ⟨ys, rfl, h1⟩
          unfold getElem
          cases hx : xs[i]? with
          | none =>
            have hi : ¬ i < size := by rw [List.getElem?_eq_none_iff] at hx; omega
            simp [bindAll, Out.ofOption, Out.bind, getDest, exec, getAll, opStep, Val.clean, bool, hi,
              cleanL, execCase]
            exact ⟨hw, Ext.refl _, repL_cons (by simp [Rep, RepL]) (repL_one hr)⟩
          | some x =>
            have hi : i < size := by
              by_contra hi
              rw [List.getElem?_eq_none (by omega)] at hx
              simp at hx
            obtain ⟨y, h3, h4⟩ := g1 x hx
            have hl : i < ys.length := by rw [h1.length]; omega
            dsimp only
            split
            · next hh =>
              simp [bindAll, Out.ofOption, Out.bind, getDest, exec, getAll, opStep, Val.clean, bool, hi,
                cleanL, execCase, borrowElem, returnElem, h3, h4.isHole, hh, Out.Agree]
            · next hh =>
              have hback : (ys.set i .hole).set i y = ys := by
                rw [List.set_set]
                apply List.ext_getElem?
                intro j
                rw [List.getElem?_set]
                split
                · next hij => subst hij; exact h3.symm
                · rfl
              have hget : (ys.set i Val.hole)[i]? = some .hole := by simp [List.getElem?_set, hl]
              simp [bindAll, Out.ofOption, Out.bind, getDest, exec, getAll, opStep, Val.clean, bool, hi,
                cleanL, execCase, borrowElem, returnElem, h3, h4.isHole, hh, copyDest, hget, hole_isHole]
              refine ⟨hw, Ext.refl _, repL_cons ?_ (repL_one ?_)⟩
              · rw [Rep]; exact ⟨_, rfl, repL_one h4⟩
              · rw [← List.set_set (a := Val.hole), hback]; exact hr
        · exact Out.Agree.stuck
      · exact Out.Agree.stuck

/-! ### Regions -/

def EnvRep (H : Heap) (e e' : Env ν) : Prop := ∀ n x, e n = some x → ∃ y, e' n = some y ∧ Rep H x y

omit [DecidableEq ν] in
theorem EnvRep.mono {H H' : Heap} {e e' : Env ν} (h : EnvRep H e e') (he : Ext H H') :
    EnvRep H' e e' := by
  intro n x hx
  obtain ⟨y, h1, h2⟩ := h n x hx
  exact ⟨y, h1, h2.mono he⟩

abbrev Callee (W : Type) := Key → St W → List Val → Out (St W × List Val)

def CalleeRep (c c' : Callee W) : Prop :=
  ∀ key (st st' : St W) vs vs', st.w = st'.w → RepL st'.heap vs vs' →
    Out.Agree (R1 st'.heap) (c key st vs) (c' key st' vs')

/-- What follows a statement. -/
theorem next_rep {H : Heap} {e e' : Env ν} (he : EnvRep H e e') {outs : List (ν × Bool)}
    {r r' : St W × List Val} (hr : R1 H r r') {k k' : Env ν → St W → Out (St W × List Val)}
    (hk : ∀ e1 e1', EnvRep r'.1.heap e1 e1' → Out.Agree (R1 r'.1.heap) (k e1 r.1) (k' e1' r'.1)) :
    Out.Agree (R1 H) ((Out.ofOption (bindAll e outs r.2)).bind fun e1 => k e1 r.1)
      ((Out.ofOption (bindAll e' outs r'.2)).bind fun e1 => k' e1 r'.1) := by
  obtain ⟨h1, h2, h3⟩ := hr
  refine Out.Agree.bind (R := fun e1 e1' => EnvRep r'.1.heap e1 e1') ?_ ?_
  · exact Out.Agree.ofOption fun e1 h => bindAll_rep (he.mono h2) h3 h
  · intro e1 e1' h
    refine (hk e1 e1' h).mono ?_
    rintro x y ⟨a1, a2, a3⟩
    exact ⟨a1, h2.trans a2, a3⟩

omit [DecidableEq ν] in
theorem noNames_rep (H : Heap) : EnvRep H (noNames : Env ν) noNames := by
  intro n x h; simp [noNames] at h

omit [DecidableEq ν] in
theorem ins_rep {H : Heap} {e e' : Env ν} (he : EnvRep H e e') (ins : List ν) :
    Out.Agree (RepL H) (Out.ofOption (getAll e ins)) (Out.ofOption (getAll e' ins)) :=
  Out.Agree.ofOption fun _ h => getAll_rep he h

mutual
theorem exec_rep {M : Machine W L} {c c' : Callee W} (hc : CalleeRep c c') :
    ∀ (b : Body Nat L), b.all Op.source = true → ∀ {e e' : Env Nat} {st st' : St W}, st.w = st'.w →
      EnvRep st'.heap e e' →
      Out.Agree (R1 st'.heap) (exec M c b e st) (exec M c' (lowerOps b) e' st')
  | .ret outs, _, e, e', st, st', hw, he => by
    simp only [exec, lowerOps]
    refine Out.Agree.bind (ins_rep he outs) ?_
    intro vs vs' hv
    exact ⟨hw, Ext.refl _, hv⟩
  | .op o ins outs k, hb, e, e', st, st', hw, he => by
    simp only [Body.all, Bool.and_eq_true] at hb
    rw [lowerOps]
    cases hl : lowerOp o with
    | inl o' =>
      dsimp only
      rw [exec, exec]
      refine Out.Agree.bind (ins_rep he ins) ?_
      intro vs vs' hv
      refine Out.Agree.bind (opStep_rep hb.1 hl hw hv) ?_
      intro r r' hr
      exact next_rep he hr fun e1 e1' h => exec_rep hc k hb.2 hr.1 h
    | inr t =>
      obtain ⟨bins, b⟩ := t
      dsimp only
      rw [exec, exec]
      refine Out.Agree.bind (ins_rep he ins) ?_
      intro vs vs' hv
      refine Out.Agree.bind (template_rep hl c' hw hv) ?_
      intro r r' hr
      exact next_rep he hr fun e1 e1' h => exec_rep hc k hb.2 hr.1 h
  | .cond ins cs outs k, hb, e, e', st, st', hw, he => by
    simp only [Body.all, Bool.and_eq_true] at hb
    rw [lowerOps, exec, exec]
    refine Out.Agree.bind (ins_rep he ins) ?_
    intro vs vs' hv
    refine Out.Agree.bind (R := R1 st'.heap) ?_ ?_
    · cases vs with
      | nil => exact Out.Agree.stuck
      | cons v rest =>
        cases v with
        | sum t xs =>
          obtain ⟨y, ys, rfl, h1, h2⟩ := repL_cons_inv hv
          simp only [Rep] at h1
          obtain ⟨xs', rfl, h1⟩ := h1
          exact execCase_rep hc cs hb.1 hw (h1.append h2)
        | _ => exact Out.Agree.stuck
    · intro r r' hr
      exact next_rep he hr fun e1 e1' h => exec_rep hc k hb.2 hr.1 h
  | .dfg ins bins b outs k, hb, e, e', st, st', hw, he => by
    simp only [Body.all, Bool.and_eq_true] at hb
    rw [lowerOps, exec, exec]
    refine Out.Agree.bind (ins_rep he ins) ?_
    intro vs vs' hv
    refine Out.Agree.bind (R := R1 st'.heap) ?_ ?_
    · refine Out.Agree.bind (R := EnvRep st'.heap)
        (Out.Agree.ofOption fun e1 h => bindAll_rep (noNames_rep _) hv h) ?_
      intro e1 e1' h
      exact exec_rep hc b hb.1 hw h
    · intro r r' hr
      exact next_rep he hr fun e1 e1' h => exec_rep hc k hb.2 hr.1 h
  | .call key ins outs k, hb, e, e', st, st', hw, he => by
    simp only [Body.all] at hb
    rw [lowerOps, exec, exec]
    refine Out.Agree.bind (ins_rep he ins) ?_
    intro vs vs' hv
    refine Out.Agree.bind (hc key st st' vs vs' hw hv) ?_
    intro r r' hr
    exact next_rep he hr fun e1 e1' h => exec_rep hc k hb hr.1 h
theorem execCase_rep {M : Machine W L} {c c' : Callee W} (hc : CalleeRep c c') :
    ∀ (cs : Cases Nat L), cs.all Op.source = true → ∀ {t : Nat} {st st' : St W} {vs vs' : List Val},
      st.w = st'.w → RepL st'.heap vs vs' →
      Out.Agree (R1 st'.heap) (execCase M c cs t st vs) (execCase M c' (lowerOpsC cs) t st' vs')
  | .nil, _, _, _, _, _, _, _, _ => by
    simp only [execCase]
    exact Out.Agree.stuck
  | .cons bins b cs, hb, 0, st, st', vs, vs', hw, hv => by
    simp only [Cases.all, Bool.and_eq_true] at hb
    rw [lowerOpsC, execCase, execCase]
    refine Out.Agree.bind (R := EnvRep st'.heap)
      (Out.Agree.ofOption fun e1 h => bindAll_rep (noNames_rep _) hv h) ?_
    intro e1 e1' h
    exact exec_rep hc b hb.1 hw h
  | .cons bins b cs, hb, t + 1, st, st', vs, vs', hw, hv => by
    simp only [Cases.all, Bool.and_eq_true] at hb
    rw [lowerOpsC, execCase, execCase]
    exact execCase_rep hc cs hb.2 hw hv
end

/-- The table with all operations replaced. -/
def lowerOpsTable (P : Nat → Option (Def Nat L)) : Nat → Option (Def Nat L) :=
  fun f => (P f).map fun d => ⟨d.bins, lowerOps d.body, d.succs⟩

theorem after_rep {c c' : Callee W} (hc : CalleeRep c c') (succs : List (Option Nat)) (key : Key)
    {H : Heap} {r r' : St W × List Val} (hr : R1 H r r') :
    Out.Agree (R1 H) (after c succs key r) (after c' succs key r') := by
  obtain ⟨h1, h2, h3⟩ := hr
  have hcall : ∀ key vs vs', RepL r'.1.heap vs vs' →
      Out.Agree (R1 H) (c key r.1 vs) (c' key r'.1 vs') := by
    intro key vs vs' hv
    refine (hc key r.1 r'.1 vs vs' h1 hv).mono ?_
    rintro x y ⟨a1, a2, a3⟩
    exact ⟨a1, h2.trans a2, a3⟩
  obtain ⟨st, vs⟩ := r
  obtain ⟨st', vs'⟩ := r'
  dsimp only at h1 h2 h3 hcall
  cases key with
  | fn f => exact ⟨h1, h2, h3⟩
  | loop f =>
    cases vs with
    | nil => exact Out.Agree.stuck
    | cons v rest =>
      obtain ⟨y, ys, rfl, g1, g2⟩ := repL_cons_inv h3
      cases v with
      | sum t xs =>
        simp only [Rep] at g1
        obtain ⟨xs', rfl, g1⟩ := g1
        match t with
        | 0 => exact hcall _ _ _ (g1.append g2)
        | 1 => exact ⟨h1, h2, g1.append g2⟩
        | t + 2 => exact Out.Agree.stuck
      | _ => exact Out.Agree.stuck
  | block f =>
    cases vs with
    | nil => exact Out.Agree.stuck
    | cons v rest =>
      obtain ⟨y, ys, rfl, g1, g2⟩ := repL_cons_inv h3
      cases v with
      | sum t xs =>
        simp only [Rep] at g1
        obtain ⟨xs', rfl, g1⟩ := g1
        simp only [after]
        cases succs[t]? with
        | none => exact Out.Agree.stuck
        | some g =>
          cases g with
          | none => exact ⟨h1, h2, g1.append g2⟩
          | some g => exact hcall _ _ _ (g1.append g2)
      | _ => exact Out.Agree.stuck

theorem run_rep {M : Machine W L} {P : Nat → Option (Def Nat L)}
    (hP : ∀ f d, P f = some d → d.body.all Op.source = true) (n : Nat) :
    CalleeRep (run M P n) (run M (lowerOpsTable P) n) := by
  induction n with
  | zero => intro key st st' vs vs' _ _; trivial
  | succ n ih =>
    intro key st st' vs vs' hw hv
    rw [run, run]
    unfold lowerOpsTable
    cases hd : P key.index with
    | none => exact Out.Agree.stuck
    | some d =>
      dsimp only [Option.map_some]
      refine Out.Agree.bind (R := R1 st'.heap) ?_ fun r r' hr => after_rep ih d.succs key hr
      unfold execDef
      refine Out.Agree.bind (R := EnvRep st'.heap)
        (Out.Agree.ofOption fun e1 h => bindAll_rep (noNames_rep _) hv h) ?_
      intro e1 e1' h
      exact exec_rep ih d.body (hP _ d hd) hw h

end Verif.LazyBool
