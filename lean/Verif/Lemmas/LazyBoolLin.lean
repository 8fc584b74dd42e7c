import Verif.Lemmas.LazyBool

/-!
# Linearization keeps the values
-/

namespace Verif.LazyBool

variable {W L ν : Type} [DecidableEq ν]

/-! ### Values up to the choice of futures -/

mutual
def Eqv (H H' : Heap) : Val → Val → Prop
  | .o b, y => y = .o b
  | .fut h, y => ∃ h' b, y = .fut h' ∧ valOf H h = some b ∧ valOf H' h' = some b
  | .lin q, y => y = .lin q
  | .nat n, y => y = .nat n
  | .hole, y => y = .hole
  | .sum t xs, y => ∃ ys, y = .sum t ys ∧ EqvL H H' xs ys
def EqvL (H H' : Heap) : List Val → List Val → Prop
  | [], ys => ys = []
  | x :: xs, ys => ∃ y ys', ys = y :: ys' ∧ Eqv H H' x y ∧ EqvL H H' xs ys'
end

mutual
theorem Eqv.mono {H H' I I' : Heap} (he : Ext H I) (he' : Ext H' I') :
    ∀ {x y : Val}, Eqv H H' x y → Eqv I I' x y
  | .o b, y, h => by simpa [Eqv] using h
  | .fut h, y, hh => by
    unfold Eqv at *
    obtain ⟨h', b, h1, h2, h3⟩ := hh
    exact ⟨h', b, h1, he _ _ h2, he' _ _ h3⟩
  | .lin q, _, h => by simpa [Eqv] using h
  | .nat n, _, h => by simpa [Eqv] using h
  | .hole, _, h => by simpa [Eqv] using h
  | .sum t xs, y, h => by
    unfold Eqv at *
    obtain ⟨ys, h1, h2⟩ := h
    exact ⟨ys, h1, EqvL.mono he he' h2⟩
theorem EqvL.mono {H H' I I' : Heap} (he : Ext H I) (he' : Ext H' I') :
    ∀ {xs ys : List Val}, EqvL H H' xs ys → EqvL I I' xs ys
  | [], ys, h => by simpa [EqvL] using h
  | x :: xs, ys, h => by
    unfold EqvL at *
    obtain ⟨y, ys', h1, h2, h3⟩ := h
    exact ⟨y, ys', h1, Eqv.mono he he' h2, EqvL.mono he he' h3⟩
end

mutual
theorem Eqv.clean {H H' : Heap} : ∀ {x y : Val}, Eqv H H' x y → x.clean = true → y = x
  | .o b, y, h, _ => by simpa [Eqv] using h
  | .fut _, _, _, hc => by simp [Val.clean] at hc
  | .lin q, _, h, _ => by simpa [Eqv] using h
  | .nat n, _, h, _ => by simpa [Eqv] using h
  | .hole, _, h, _ => by simpa [Eqv] using h
  | .sum t xs, y, h, hc => by
    unfold Eqv at h
    obtain ⟨ys, rfl, h2⟩ := h
    rw [EqvL.clean h2 (by simpa [Val.clean] using hc)]
theorem EqvL.clean {H H' : Heap} : ∀ {xs ys : List Val}, EqvL H H' xs ys → cleanL xs = true → ys = xs
  | [], ys, h, _ => by simpa [EqvL] using h
  | x :: xs, ys, h, hc => by
    unfold EqvL at h
    obtain ⟨y, ys', rfl, h2, h3⟩ := h
    simp only [cleanL, Bool.and_eq_true] at hc
    rw [Eqv.clean h2 hc.1, EqvL.clean h3 hc.2]
end

mutual
theorem eqv_clean (H H' : Heap) : ∀ {x : Val}, x.clean = true → Eqv H H' x x
  | .o b, _ => by simp [Eqv]
  | .fut _, hc => by simp [Val.clean] at hc
  | .lin q, _ => by simp [Eqv]
  | .nat n, _ => by simp [Eqv]
  | .hole, _ => by simp [Eqv]
  | .sum t xs, hc => by
    unfold Eqv
    exact ⟨xs, rfl, eqvL_clean H H' (by simpa [Val.clean] using hc)⟩
theorem eqvL_clean (H H' : Heap) : ∀ {xs : List Val}, cleanL xs = true → EqvL H H' xs xs
  | [], _ => by simp [EqvL]
  | x :: xs, hc => by
    simp only [cleanL, Bool.and_eq_true] at hc
    unfold EqvL
    exact ⟨x, xs, rfl, eqv_clean H H' hc.1, eqvL_clean H H' hc.2⟩
end

mutual
/-- Constants without futures. -/
theorem eqv_noFut (H H' : Heap) : ∀ {x : Val}, x.noFut = true → Eqv H H' x x
  | .o b, _ => by simp [Eqv]
  | .fut _, hc => by simp [Val.noFut] at hc
  | .lin q, _ => by simp [Eqv]
  | .nat n, _ => by simp [Eqv]
  | .hole, _ => by simp [Eqv]
  | .sum t xs, hc => by
    unfold Eqv
    exact ⟨xs, rfl, eqvL_noFut H H' (by simpa [Val.noFut] using hc)⟩
theorem eqvL_noFut (H H' : Heap) : ∀ {xs : List Val}, noFutL xs = true → EqvL H H' xs xs
  | [], _ => by simp [EqvL]
  | x :: xs, hc => by
    simp only [noFutL, Bool.and_eq_true] at hc
    unfold EqvL
    exact ⟨x, xs, rfl, eqv_noFut H H' hc.1, eqvL_noFut H H' hc.2⟩
end

theorem EqvL.length {H H' : Heap} : ∀ {xs ys : List Val}, EqvL H H' xs ys → ys.length = xs.length
  | [], ys, h => by simp [EqvL] at h; simp [h]
  | x :: xs, ys, h => by
    unfold EqvL at h
    obtain ⟨y, ys', rfl, _, h3⟩ := h
    simp [EqvL.length h3]

theorem EqvL.append {H H' : Heap} : ∀ {xs ys xs' ys' : List Val}, EqvL H H' xs ys →
    EqvL H H' xs' ys' → EqvL H H' (xs ++ xs') (ys ++ ys')
  | [], ys, _, _, h, h' => by simp [EqvL] at h; simpa [h] using h'
  | x :: xs, ys, _, _, h, h' => by
    unfold EqvL at h
    obtain ⟨y, ys1, rfl, h2, h3⟩ := h
    rw [List.cons_append, EqvL]
    exact ⟨y, ys1 ++ _, rfl, h2, EqvL.append h3 h'⟩

theorem EqvL.get {H H' : Heap} : ∀ {xs ys : List Val} {i : Nat}, EqvL H H' xs ys →
    (∀ x, xs[i]? = some x → ∃ y, ys[i]? = some y ∧ Eqv H H' x y) ∧ (xs[i]? = none → ys[i]? = none)
  | [], ys, i, h => by simp [EqvL] at h; simp [h]
  | x :: xs, ys, i, h => by
    unfold EqvL at h
    obtain ⟨y, ys1, rfl, h2, h3⟩ := h
    cases i with
    | zero => simp [h2]
    | succ i => simpa using EqvL.get h3

theorem EqvL.set {H H' : Heap} : ∀ {xs ys : List Val} {i : Nat} {x y : Val}, EqvL H H' xs ys →
    Eqv H H' x y → EqvL H H' (xs.set i x) (ys.set i y)
  | [], ys, i, x, y, h, _ => by simp [EqvL] at h; simp [h, EqvL]
  | x :: xs, ys, i, x', y', h, h' => by
    unfold EqvL at h
    obtain ⟨y, ys1, rfl, h2, h3⟩ := h
    cases i with
    | zero => rw [List.set_cons_zero, List.set_cons_zero, EqvL]; exact ⟨_, _, rfl, h', h3⟩
    | succ i => rw [List.set_cons_succ, List.set_cons_succ, EqvL]; exact ⟨_, _, rfl, h2, h3.set h'⟩

theorem Eqv.isHole {H H' : Heap} {x y : Val} (h : Eqv H H' x y) : y.isHole = x.isHole := by
  cases x <;> simp [Eqv] at h
  · simp [h]
  · obtain ⟨i, rfl, _⟩ := h; rfl
  · simp [h]
  · simp [h]
  · simp [h]
  · obtain ⟨ys, rfl, _⟩ := h; rfl

theorem Eqv.toBool {H H' : Heap} {x y : Val} {b : Bool} (h : Eqv H H' x y) (hb : x.toBool = some b) :
    y = x := by
  apply h.clean
  unfold Val.toBool at hb
  split at hb <;> simp_all [Val.clean, cleanL]

mutual
theorem Eqv.symm {H H' : Heap} : ∀ {x y : Val}, Eqv H H' x y → Eqv H' H y x
  | .o b, y, h => by simp only [Eqv] at h; subst h; simp [Eqv]
  | .fut h, y, hh => by
    unfold Eqv at hh
    obtain ⟨h', b, rfl, h2, h3⟩ := hh
    unfold Eqv
    exact ⟨h, b, rfl, h3, h2⟩
  | .lin q, y, h => by simp only [Eqv] at h; subst h; simp [Eqv]
  | .nat n, y, h => by simp only [Eqv] at h; subst h; simp [Eqv]
  | .hole, y, h => by simp only [Eqv] at h; subst h; simp [Eqv]
  | .sum t xs, y, h => by
    unfold Eqv at h
    obtain ⟨ys, rfl, h2⟩ := h
    rw [Eqv]
    exact ⟨xs, rfl, EqvL.symm h2⟩
theorem EqvL.symm {H H' : Heap} : ∀ {xs ys : List Val}, EqvL H H' xs ys → EqvL H' H ys xs
  | [], ys, h => by simp only [EqvL] at h; subst h; simp [EqvL]
  | x :: xs, ys, h => by
    unfold EqvL at h
    obtain ⟨y, ys', rfl, h2, h3⟩ := h
    rw [EqvL]
    exact ⟨x, xs, rfl, Eqv.symm h2, EqvL.symm h3⟩
end

mutual
theorem free_eqv {H H' : Heap} : ∀ {x y : Val}, Eqv H H' x y →
    ∃ H1, freeVal y H' = some H1 ∧ Ext H' H1
  | .o b, y, h => by simp only [Eqv] at h; subst h; exact ⟨H', by simp [freeVal], Ext.refl _⟩
  | .fut _, _, h => by
    unfold Eqv at h
    obtain ⟨h', b, rfl, h2, h3⟩ := h
    obtain ⟨H1, h4, h5⟩ := consume_ok h3
    exact ⟨H1, by simp [freeVal, h4], h5⟩
  | .lin q, y, h => by simp only [Eqv] at h; subst h; exact ⟨H', by simp [freeVal], Ext.refl _⟩
  | .nat n, y, h => by simp only [Eqv] at h; subst h; exact ⟨H', by simp [freeVal], Ext.refl _⟩
  | .hole, y, h => by simp only [Eqv] at h; subst h; exact ⟨H', by simp [freeVal], Ext.refl _⟩
  | .sum t xs, y, h => by
    unfold Eqv at h
    obtain ⟨ys, rfl, h2⟩ := h
    obtain ⟨H1, h3, h4⟩ := frees_eqv h2
    exact ⟨H1, by simp [freeVal, h3], h4⟩
theorem frees_eqv {H H' : Heap} : ∀ {xs ys : List Val}, EqvL H H' xs ys →
    ∃ H1, freeVals ys H' = some H1 ∧ Ext H' H1
  | [], ys, h => by simp only [EqvL] at h; subst h; exact ⟨H', by simp [freeVals], Ext.refl _⟩
  | x :: xs, ys, h => by
    unfold EqvL at h
    obtain ⟨y, ys', rfl, h2, h3⟩ := h
    obtain ⟨H1, h4, h5⟩ := free_eqv h2
    obtain ⟨H2, h6, h7⟩ := frees_eqv (h3.mono (Ext.refl _) h5)
    exact ⟨H2, by simp [freeVals, h4, h6], h5.trans h7⟩
end

mutual
theorem copy_eqv {H H' : Heap} : ∀ {x y : Val}, Eqv H H' x y →
    ∃ a b H1, copyVal y H' = some (a, b, H1) ∧ Ext H' H1 ∧ Eqv H H1 x a ∧ Eqv H H1 x b
  | .o b, y, h => by
    simp only [Eqv] at h; subst h
    exact ⟨.o b, .o b, H', by simp [copyVal], Ext.refl _, by simp [Eqv], by simp [Eqv]⟩
  | .fut h, _, hh => by
    unfold Eqv at hh
    obtain ⟨h', b, rfl, h2, h3⟩ := hh
    obtain ⟨H1, h4, h5⟩ := consume_ok h3
    refine ⟨.fut H1.length, .fut (H1.length + 1), (H1 ++ [⟨b, 0⟩]) ++ [⟨b, 0⟩], ?_, ?_, ?_, ?_⟩
    · simp [copyVal, h4, alloc]
    · exact h5.trans ((ext_alloc _ _).trans (ext_alloc _ _))
    · rw [Eqv]
      exact ⟨_, b, rfl, h2, ext_alloc _ _ _ _ (valOf_alloc _ _)⟩
    · rw [Eqv]
      refine ⟨_, b, rfl, h2, ?_⟩
      have := valOf_alloc (H1 ++ [⟨b, 0⟩]) b
      rwa [List.length_append, List.length_singleton] at this
  | .lin q, y, h => by
    simp only [Eqv] at h; subst h
    exact ⟨.lin q, .lin q, H', by simp [copyVal], Ext.refl _, by simp [Eqv], by simp [Eqv]⟩
  | .nat n, y, h => by
    simp only [Eqv] at h; subst h
    exact ⟨.nat n, .nat n, H', by simp [copyVal], Ext.refl _, by simp [Eqv], by simp [Eqv]⟩
  | .hole, y, h => by
    simp only [Eqv] at h; subst h
    exact ⟨.hole, .hole, H', by simp [copyVal], Ext.refl _, by simp [Eqv], by simp [Eqv]⟩
  | .sum t xs, y, h => by
    unfold Eqv at h
    obtain ⟨ys, rfl, h2⟩ := h
    obtain ⟨as, bs, H1, h3, h4, h5, h6⟩ := copies_eqv h2
    refine ⟨.sum t as, .sum t bs, H1, by simp [copyVal, h3], h4, ?_, ?_⟩
    · rw [Eqv]; exact ⟨_, rfl, h5⟩
    · rw [Eqv]; exact ⟨_, rfl, h6⟩
theorem copies_eqv {H H' : Heap} : ∀ {xs ys : List Val}, EqvL H H' xs ys →
    ∃ as bs H1, copyVals ys H' = some (as, bs, H1) ∧ Ext H' H1 ∧ EqvL H H1 xs as ∧ EqvL H H1 xs bs
  | [], ys, h => by
    simp only [EqvL] at h; subst h
    exact ⟨[], [], H', by simp [copyVals], Ext.refl _, by simp [EqvL], by simp [EqvL]⟩
  | x :: xs, ys, h => by
    unfold EqvL at h
    obtain ⟨y, ys', rfl, h2, h3⟩ := h
    obtain ⟨a, b, H1, h4, h5, h6, h7⟩ := copy_eqv h2
    obtain ⟨as, bs, H2, g4, g5, g6, g7⟩ := copies_eqv (h3.mono (Ext.refl _) h5)
    refine ⟨a :: as, b :: bs, H2, by simp [copyVals, h4, g4], h5.trans g5, ?_, ?_⟩
    · rw [EqvL]; exact ⟨_, _, rfl, h6.mono (Ext.refl _) g5, g6⟩
    · rw [EqvL]; exact ⟨_, _, rfl, h7.mono (Ext.refl _) g5, g7⟩
end

theorem copyN_eqv {H H' : Heap} {x y : Val} (h : Eqv H H' x y) (k : Nat) :
    ∃ ys H1, copyN k y H' = some (ys, H1) ∧ ys.length = k ∧ Ext H' H1 ∧ ∀ z ∈ ys, Eqv H H1 x z := by
  induction k using Nat.strongRecOn generalizing H' y with
  | _ k ih =>
    match k with
    | 0 =>
      obtain ⟨H1, h1, h2⟩ := free_eqv h
      exact ⟨[], H1, by simp [copyN, h1], rfl, h2, by simp⟩
    | 1 => exact ⟨[y], H', by simp [copyN], rfl, Ext.refl _, by simpa using h⟩
    | k + 2 =>
      obtain ⟨a, b, H1, h1, h2, h3, h4⟩ := copy_eqv h
      obtain ⟨ys, H2, h5, h6, h7, h8⟩ := ih (k + 1) (by omega) h4
      refine ⟨a :: ys, H2, by simp [copyN, h1, h5], by simp [h6], h2.trans h7, ?_⟩
      intro z hz
      rcases List.mem_cons.mp hz with rfl | hz
      · exact h3.mono (Ext.refl _) h7
      · exact h8 z hz

/-! ### Operations -/

def R2 (H H' : Heap) (r r' : St W × List Val) : Prop :=
  r.1.w = r'.1.w ∧ Ext H r.1.heap ∧ Ext H' r'.1.heap ∧ EqvL r.1.heap r'.1.heap r.2 r'.2

theorem eqvL_nil {H H' : Heap} : EqvL H H' [] [] := by simp [EqvL]
theorem eqvL_cons {H H' : Heap} {x y : Val} {xs ys : List Val} (h : Eqv H H' x y)
    (h' : EqvL H H' xs ys) : EqvL H H' (x :: xs) (y :: ys) := by
  rw [EqvL]; exact ⟨y, ys, rfl, h, h'⟩
theorem eqvL_one {H H' : Heap} {x y : Val} (h : Eqv H H' x y) : EqvL H H' [x] [y] :=
  eqvL_cons h eqvL_nil
theorem eqvL_nil_inv {H H' : Heap} {ys : List Val} (h : EqvL H H' [] ys) : ys = [] := by
  simpa [EqvL] using h
theorem eqvL_cons_inv {H H' : Heap} {x : Val} {xs ys : List Val} (h : EqvL H H' (x :: xs) ys) :
    ∃ y ys', ys = y :: ys' ∧ Eqv H H' x y ∧ EqvL H H' xs ys' := by rwa [EqvL] at h
theorem eqvL_one_inv {H H' : Heap} {x : Val} {ys : List Val} (h : EqvL H H' [x] ys) :
    ∃ y, ys = [y] ∧ Eqv H H' x y := by
  obtain ⟨y, ys', rfl, h1, h2⟩ := eqvL_cons_inv h
  exact ⟨y, by rw [eqvL_nil_inv h2], h1⟩
theorem eqvL_two_inv {H H' : Heap} {x x' : Val} {ys : List Val} (h : EqvL H H' [x, x'] ys) :
    ∃ y y', ys = [y, y'] ∧ Eqv H H' x y ∧ Eqv H H' x' y' := by
  obtain ⟨y, ys', rfl, h1, h2⟩ := eqvL_cons_inv h
  obtain ⟨y', rfl, h3⟩ := eqvL_one_inv h2
  exact ⟨y, y', rfl, h1, h3⟩

theorem eqv_bool (H H' : Heap) (b : Bool) : Eqv H H' (bool b) (bool b) :=
  eqv_clean H H' (clean_bool b)

/-- Operations of a program between the two steps. -/
def Op.middle : Op L → Bool
  | .copy _ => false
  | .const v => v.noFut
  | _ => true

theorem opStep_eqv {M : Machine W L} {o : Op L} (ho : o.middle = true)
    {st st' : St W} (hw : st.w = st'.w) {vs vs' : List Val} (hv : EqvL st.heap st'.heap vs vs') :
    Out.Agree (R2 st.heap st'.heap) (opStep M o st vs) (opStep M o st' vs') := by
  have hE : ∀ {H : Heap}, Ext H H := fun {H} => Ext.refl H
  cases o with
  | copy k => simp [Op.middle] at ho
  | read =>
    simp only [opStep]
    split
    · obtain ⟨y, rfl, h1⟩ := eqvL_one_inv hv
      simp only [Eqv] at h1
      subst h1
      exact ⟨hw, hE, hE, eqvL_one (eqv_bool _ _ _)⟩
    · exact Out.Agree.stuck
  | makeOpaque =>
    simp only [opStep]
    split
    · next v =>
      obtain ⟨y, rfl, h1⟩ := eqvL_one_inv hv
      cases ha : v.toBool with
      | none => exact Out.Agree.stuck
      | some a =>
        dsimp only
        rw [h1.toBool ha, ha]
        exact ⟨hw, hE, hE, eqvL_one (by simp [Eqv])⟩
    · exact Out.Agree.stuck
  | bin f =>
    simp only [opStep]
    split
    · obtain ⟨y, y', rfl, h1, h2⟩ := eqvL_two_inv hv
      simp only [Eqv] at h1 h2
      subst h1 h2
      exact ⟨hw, hE, hE, eqvL_one (by simp [Eqv])⟩
    · exact Out.Agree.stuck
  | not =>
    simp only [opStep]
    split
    · obtain ⟨y, rfl, h1⟩ := eqvL_one_inv hv
      simp only [Eqv] at h1
      subst h1
      exact ⟨hw, hE, hE, eqvL_one (by simp [Eqv])⟩
    · exact Out.Agree.stuck
  | const v =>
    simp only [opStep]
    split
    · rw [eqvL_nil_inv hv]
      exact ⟨hw, hE, hE, eqvL_one (eqv_noFut _ _ (by simpa [Op.middle] using ho))⟩
    · exact Out.Agree.stuck
  | measure =>
    simp only [opStep]
    split
    · obtain ⟨y, rfl, h1⟩ := eqvL_one_inv hv
      simp only [Eqv] at h1
      subst h1
      dsimp only
      rw [hw]
      exact ⟨rfl, hE, hE, eqvL_one (by simp [Eqv])⟩
    · exact Out.Agree.stuck
  | measureReset =>
    simp only [opStep]
    split
    · obtain ⟨y, rfl, h1⟩ := eqvL_one_inv hv
      simp only [Eqv] at h1
      subst h1
      dsimp only
      rw [hw]
      exact ⟨rfl, hE, hE, eqvL_cons (by simp [Eqv]) (eqvL_one (by simp [Eqv]))⟩
    · exact Out.Agree.stuck
  | prim l =>
    simp only [opStep]
    split
    · next hc =>
      rw [hv.clean hc, if_pos hc, ← hw]
      cases hp : M.prim l st.w vs with
      | none => trivial
      | some r =>
        dsimp only
        split
        · next hr => exact ⟨rfl, hE, hE, eqvL_clean _ _ hr⟩
        · exact Out.Agree.stuck
    · exact Out.Agree.stuck
  | tag t =>
    refine ⟨hw, hE, hE, eqvL_one ?_⟩
    rw [Eqv]
    exact ⟨vs', rfl, hv⟩
  | clone lz =>
    simp only [opStep]
    split
    · next v =>
      obtain ⟨y, rfl, h1⟩ := eqvL_one_inv hv
      split
      · next hc =>
        dsimp only
        have hc' : (lz || y.clean) = true := by
          cases lz with
          | true => rfl
          | false => simp only [Bool.false_or] at hc ⊢; rw [h1.clean hc]; exact hc
        rw [if_pos hc']
        exact ⟨hw, hE, hE, eqvL_cons h1 (eqvL_one h1)⟩
      · exact Out.Agree.stuck
    · exact Out.Agree.stuck
  | discard lz =>
    simp only [opStep]
    split
    · next v =>
      obtain ⟨y, rfl, h1⟩ := eqvL_one_inv hv
      split
      · next hc =>
        dsimp only
        have hc' : (lz || y.clean) = true := by
          cases lz with
          | true => rfl
          | false => simp only [Bool.false_or] at hc ⊢; rw [h1.clean hc]; exact hc
        rw [if_pos hc']
        exact ⟨hw, hE, hE, eqvL_nil⟩
      · exact Out.Agree.stuck
    · exact Out.Agree.stuck
  | get lz size =>
    simp only [opStep]
    split
    · next xs i =>
      obtain ⟨y, z, rfl, h1, h2⟩ := eqvL_two_inv hv
      simp only [Eqv] at h1 h2
      obtain ⟨ys, rfl, h1⟩ := h1
      subst h2
      obtain ⟨g1, g2⟩ := h1.get (i := i)
      have hr : Eqv st.heap st'.heap (.sum 0 xs) (.sum 0 ys) := by rw [Eqv]; exact ⟨ys, rfl, h1⟩
      split
      · next hc =>
        show Out.Agree _ _ (if _ then _ else _)
        have hc' : ys.length = size ∧ (lz || cleanL ys) = true := by
          refine ⟨h1.length.trans hc.1, ?_⟩
          cases lz with
          | true => rfl
          | false =>
            simp only [Bool.false_or] at hc ⊢
            rw [h1.clean hc.2]
            exact hc.2
        rw [if_pos hc']
        unfold getElem
        cases hx : xs[i]? with
        | none =>
          rw [g2 hx]
          exact ⟨hw, hE, hE, eqvL_cons (by simp [Eqv, EqvL]) (eqvL_one hr)⟩
        | some x =>
          obtain ⟨y, h3, h4⟩ := g1 x hx
          rw [h3]
          dsimp only
          rw [h4.isHole]
          split
          · trivial
          · exact ⟨hw, hE, hE, eqvL_cons (by rw [Eqv]; exact ⟨_, rfl, eqvL_one h4⟩) (eqvL_one hr)⟩
      · exact Out.Agree.stuck
    · exact Out.Agree.stuck
  | borrow =>
    simp only [opStep]
    split
    · next xs i =>
      obtain ⟨y, z, rfl, h1, h2⟩ := eqvL_two_inv hv
      simp only [Eqv] at h1 h2
      obtain ⟨ys, rfl, h1⟩ := h1
      subst h2
      obtain ⟨g1, g2⟩ := h1.get (i := i)
      show Out.Agree _ (borrowElem st xs i) (borrowElem st' ys i)
      unfold borrowElem
      cases hx : xs[i]? with
      | none => rw [g2 hx]; trivial
      | some x =>
        obtain ⟨y, h3, h4⟩ := g1 x hx
        rw [h3]
        dsimp only
        rw [h4.isHole]
        split
        · trivial
        · exact ⟨hw, hE, hE, eqvL_cons (by rw [Eqv]; exact ⟨_, rfl, h1.set (by simp [Eqv])⟩)
            (eqvL_one h4)⟩
    · exact Out.Agree.stuck
  | giveBack =>
    simp only [opStep]
    split
    · next xs i x =>
      obtain ⟨y, ys, rfl, h1, h2⟩ := eqvL_cons_inv hv
      obtain ⟨z, x', rfl, h2, h3⟩ := eqvL_two_inv h2
      simp only [Eqv] at h1 h2
      obtain ⟨ys, rfl, h1⟩ := h1
      subst h2
      obtain ⟨g1, g2⟩ := h1.get (i := i)
      show Out.Agree _ (returnElem st xs i x) (returnElem st' ys i x')
      unfold returnElem
      cases hx : xs[i]? with
      | none => rw [g2 hx]; trivial
      | some x0 =>
        obtain ⟨y, h4, h5⟩ := g1 x0 hx
        rw [h4]
        dsimp only
        rw [h5.isHole]
        split
        · exact ⟨hw, hE, hE, eqvL_one (by rw [Eqv]; exact ⟨_, rfl, h1.set h3⟩)⟩
        · trivial
    · exact Out.Agree.stuck
  | drop =>
    simp only [opStep]
    split
    · next v =>
      obtain ⟨y, rfl, h1⟩ := eqvL_one_inv hv
      obtain ⟨H1, h2, h3⟩ := free_eqv h1
      obtain ⟨H2, h4, h5⟩ := free_eqv h1.symm
      dsimp only
      rw [h2, h4]
      exact ⟨hw, h5, h3, eqvL_nil⟩
    · exact Out.Agree.stuck
  | lbin f =>
    simp only [opStep]
    split
    · next x y =>
      obtain ⟨x', y', rfl, h1, h2⟩ := eqvL_two_inv hv
      dsimp only
      cases ha : x.toBool with
      | none => exact Out.Agree.stuck
      | some a =>
        rw [h1.toBool ha, ha]
        cases hb : y.toBool with
        | none => exact Out.Agree.stuck
        | some b =>
          rw [h2.toBool hb, hb]
          exact ⟨hw, hE, hE, eqvL_one (eqv_bool _ _ _)⟩
    · exact Out.Agree.stuck
  | lnot =>
    simp only [opStep]
    split
    · next x =>
      obtain ⟨x', rfl, h1⟩ := eqvL_one_inv hv
      dsimp only
      cases ha : x.toBool with
      | none => exact Out.Agree.stuck
      | some a =>
        rw [h1.toBool ha, ha]
        exact ⟨hw, hE, hE, eqvL_one (eqv_bool _ _ _)⟩
    · exact Out.Agree.stuck
  | ilt n =>
    simp only [opStep]
    split
    · next i =>
      obtain ⟨x', rfl, h1⟩ := eqvL_one_inv hv
      simp only [Eqv] at h1
      subst h1
      exact ⟨hw, hE, hE, eqvL_one (eqv_bool _ _ _)⟩
    · exact Out.Agree.stuck
  | lazyMeasure =>
    simp only [opStep]
    split
    · obtain ⟨y, rfl, h1⟩ := eqvL_one_inv hv
      simp only [Eqv] at h1
      subst h1
      dsimp only
      rw [hw]
      refine ⟨rfl, ext_alloc _ _, ext_alloc _ _, eqvL_one ?_⟩
      rw [Eqv]
      exact ⟨_, _, rfl, valOf_alloc _ _, valOf_alloc _ _⟩
    · exact Out.Agree.stuck
  | lazyMeasureReset =>
    simp only [opStep]
    split
    · obtain ⟨y, rfl, h1⟩ := eqvL_one_inv hv
      simp only [Eqv] at h1
      subst h1
      dsimp only
      rw [hw]
      refine ⟨rfl, ext_alloc _ _, ext_alloc _ _, eqvL_cons (by simp [Eqv]) (eqvL_one ?_)⟩
      rw [Eqv]
      exact ⟨_, _, rfl, valOf_alloc _ _, valOf_alloc _ _⟩
    · exact Out.Agree.stuck
  | futRead =>
    simp only [opStep]
    split
    · obtain ⟨y, rfl, h1⟩ := eqvL_one_inv hv
      simp only [Eqv] at h1
      obtain ⟨h', b, rfl, h2, h3⟩ := h1
      obtain ⟨H1, h4, h5⟩ := consume_ok h2
      obtain ⟨H2, h6, h7⟩ := consume_ok h3
      dsimp only
      rw [h4, h6]
      exact ⟨hw, h5, h7, eqvL_one (eqv_bool _ _ _)⟩
    · exact Out.Agree.stuck

/-! ### Regions -/

/-- The names of a linearized region hold the values of the original names; `u` are the uses that
are still to come. -/
def EnvLin (lz : ν → Bool) (u : List ν) (H H' : Heap) (e : Env ν) (e' : Env (Nm ν)) : Prop :=
  ∀ n x, e n = some x →
    (lz n = true → ∀ i, i < u.count n → ∃ y, e' (.cp n i) = some y ∧ Eqv H H' x y) ∧
    (lz n = false → ∃ y, e' (.raw n) = some y ∧ Eqv H H' x y)

theorem EnvLin.mono {lz : ν → Bool} {u u' : List ν} {H H' I I' : Heap} {e : Env ν} {e' : Env (Nm ν)}
    (h : EnvLin lz u H H' e e') (hu : ∀ n, u'.count n ≤ u.count n) (hH : Ext H I) (hH' : Ext H' I') :
    EnvLin lz u' I I' e e' := by
  intro n x hx
  obtain ⟨h1, h2⟩ := h n x hx
  constructor
  · intro hl i hi
    obtain ⟨y, h3, h4⟩ := h1 hl i (Nat.lt_of_lt_of_le hi (hu n))
    exact ⟨y, h3, h4.mono hH hH'⟩
  · intro hl
    obtain ⟨y, h3, h4⟩ := h2 hl
    exact ⟨y, h3, h4.mono hH hH'⟩

theorem EnvLin.tail {lz : ν → Bool} {ns u : List ν} {H H' : Heap} {e : Env ν} {e' : Env (Nm ν)}
    (h : EnvLin lz (ns ++ u) H H' e e') : EnvLin lz u H H' e e' :=
  h.mono (fun n => by rw [List.count_append]; omega) (Ext.refl _) (Ext.refl _)

theorem getAll_lin {lz : ν → Bool} {later : List ν} {H H' : Heap} {e : Env ν} {e' : Env (Nm ν)} :
    ∀ {ns : List ν} {vs : List Val}, EnvLin lz (ns ++ later) H H' e e' → getAll e ns = some vs →
      ∃ vs', getAll e' (rename lz later ns) = some vs' ∧ EqvL H H' vs vs'
  | [], vs, _, h => by
    simp only [getAll, Option.some.injEq] at h
    subst h
    exact ⟨[], rfl, eqvL_nil⟩
  | n :: ns, vs, he, h => by
    rw [getAll] at h
    cases hx : e n with
    | none => rw [hx] at h; simp at h
    | some x =>
      rw [hx] at h
      dsimp only at h
      obtain ⟨ws, hw, rfl⟩ := Option.map_eq_some_iff.mp h
      obtain ⟨ws', h1, h2⟩ := getAll_lin (later := later) (ns := ns)
        (he.mono (fun m => by rw [List.cons_append, List.count_cons]; omega) (Ext.refl _) (Ext.refl _)) hw
      obtain ⟨g1, g2⟩ := he n x hx
      rw [rename, getAll]
      cases hl : lz n with
      | true =>
        obtain ⟨y, h3, h4⟩ := g1 hl ((ns ++ later).count n) (by
          rw [List.cons_append, List.count_cons_self]; omega)
        rw [if_pos rfl, h3]
        exact ⟨y :: ws', by simp [h1], eqvL_cons h4 h2⟩
      | false =>
        obtain ⟨y, h3, h4⟩ := g2 hl
        rw [if_neg (by simp), h3]
        exact ⟨y :: ws', by simp [h1], eqvL_cons h4 h2⟩

theorem ins_lin {lz : ν → Bool} {later : List ν} {H H' : Heap} {e : Env ν} {e' : Env (Nm ν)}
    {ns : List ν} (he : EnvLin lz (ns ++ later) H H' e e') :
    Out.Agree (EqvL H H') (Out.ofOption (getAll e ns)) (Out.ofOption (getAll e' (rename lz later ns))) :=
  Out.Agree.ofOption fun _ h => getAll_lin he h

/-- What the definitions of a region mean for the linearized one, before copies are made. -/
structure Defined (H H' : Heap) (outs : List (ν × Bool)) (e e1 : Env ν) (e' e1' : Env (Nm ν)) : Prop where
  new : ∀ n ∈ outs.map Prod.fst, ∃ x y, e1 n = some x ∧ e1' (.raw n) = some y ∧ Eqv H H' x y
  old : ∀ n, n ∉ outs.map Prod.fst → e1 n = e n ∧ e1' (.raw n) = e' (.raw n)
  cps : ∀ n i, e1' (.cp n i) = e' (.cp n i)

theorem bindAll_lin {H H' : Heap} : ∀ {outs : List (ν × Bool)} {vs vs' : List Val} {e e1 : Env ν}
    {e' : Env (Nm ν)}, EqvL H H' vs vs' → bindAll e outs vs = some e1 →
    ∃ e1', bindAll e' (rawOuts outs) vs' = some e1' ∧ Defined H H' outs e e1 e' e1'
  | [], [], vs', e, e1, e', hv, h => by
    rw [eqvL_nil_inv hv]
    simp only [bindAll, Option.some.injEq] at h
    subst h
    exact ⟨e', rfl, ⟨by simp, by simp, by simp⟩⟩
  | [], _ :: _, _, _, _, _, _, h => by simp [bindAll] at h
  | (_, _) :: _, [], _, _, _, _, _, h => by simp [bindAll] at h
  | (n, f) :: outs, v :: vs, vs', e, e1, e', hv, h => by
    obtain ⟨y, ys, rfl, h1, h2⟩ := eqvL_cons_inv hv
    rw [bindAll] at h
    split at h
    · next hc =>
      obtain ⟨e1', h3, h4⟩ := bindAll_lin (e' := fun m => if m = .raw n then some y else e' m) h2 h
      have hc' : (f || y.clean) = true := by
        cases f with
        | true => rfl
        | false => simp only [Bool.false_or] at hc ⊢; rw [h1.clean hc]; exact hc
      refine ⟨e1', ?_, ?_⟩
      · show bindAll e' ((.raw n, f) :: rawOuts outs) (y :: ys) = some e1'
        rw [bindAll, if_pos hc']
        exact h3
      · constructor
        · intro m hm
          by_cases hmo : m ∈ outs.map Prod.fst
          · exact h4.new m hmo
          · have hmn : m = n := by
              rw [List.map_cons, List.mem_cons] at hm
              exact hm.resolve_right hmo
            subst hmn
            obtain ⟨g1, g2⟩ := h4.old m hmo
            exact ⟨v, y, by simpa using g1, by simpa using g2, h1⟩
        · intro m hm
          rw [List.map_cons, List.mem_cons, not_or] at hm
          obtain ⟨g1, g2⟩ := h4.old m hm.2
          have hne : m ≠ n := hm.1
          exact ⟨by simpa [hne] using g1, by simpa [hne] using g2⟩
        · intro m i
          simpa using h4.cps m i
    · simp at h

theorem bindCopies {n : ν} : ∀ {k s : Nat} {ys : List Val} {e : Env (Nm ν)}, ys.length = k →
    ∃ e1, bindAll e ((List.range' s k).map fun i => (Nm.cp n i, true)) ys = some e1 ∧
      (∀ i, s ≤ i → i < s + k → ∃ y ∈ ys, e1 (.cp n i) = some y) ∧
      (∀ m, (∀ i, s ≤ i → i < s + k → m ≠ .cp n i) → e1 m = e m)
  | 0, s, ys, e, h => by
    rw [List.length_eq_zero_iff.mp h]
    exact ⟨e, rfl, fun i h1 h2 => by omega, fun m _ => rfl⟩
  | k + 1, s, ys, e, h => by
    cases ys with
    | nil => simp at h
    | cons y ys =>
      obtain ⟨e1, h1, h2, h3⟩ := bindCopies (n := n) (k := k) (s := s + 1) (ys := ys)
        (e := fun m => if m = .cp n s then some y else e m) (by simpa using h)
      refine ⟨e1, ?_, ?_, ?_⟩
      · rw [List.range'_succ, List.map_cons, bindAll, if_pos (by simp)]
        exact h1
      · intro i hi1 hi2
        by_cases hs : i = s
        · subst hs
          refine ⟨y, by simp, ?_⟩
          rw [h3 _ (fun j hj _ hh => by injection hh; omega)]
          simp
        · obtain ⟨z, hz1, hz2⟩ := h2 i (by omega) (by omega)
          exact ⟨z, by simp [hz1], hz2⟩
      · intro m hm
        rw [h3 m (fun i hi1 hi2 => hm i (by omega) (by omega))]
        simp [hm s (Nat.le_refl _) (by omega)]

/-- The inserted copies. -/
theorem copies_lin {M : Machine W L} {c : Callee W} {lz : ν → Bool} {u : List ν} {k : Body (Nm ν) L}
    {H : Heap} {e : Env ν} : ∀ {outs : List (ν × Bool)} {e' : Env (Nm ν)} {st' : St W},
    (∀ n ∈ outs.map Prod.fst, ∃ x y, e n = some x ∧ e' (.raw n) = some y ∧ Eqv H st'.heap x y) →
    ∃ e1' st1', exec M c (insertCopies lz u k outs) e' st' = exec M c k e1' st1' ∧
      st1'.w = st'.w ∧ Ext st'.heap st1'.heap ∧
      (∀ n, e1' (.raw n) = e' (.raw n)) ∧
      (∀ n i, n ∉ outs.map Prod.fst → e1' (.cp n i) = e' (.cp n i)) ∧
      (∀ n ∈ outs.map Prod.fst, lz n = true → ∀ i, i < u.count n →
        ∃ x y, e n = some x ∧ e1' (.cp n i) = some y ∧ Eqv H st1'.heap x y)
  | [], e', st', _ => ⟨e', st', rfl, rfl, Ext.refl _, fun _ => rfl, fun _ _ _ => rfl, by simp⟩
  | (n, f) :: outs, e', st', h => by
    rw [insertCopies]
    obtain ⟨x, y, hx, hy, hxy⟩ := h n (by simp)
    cases hl : lz n with
    | false =>
      rw [if_neg (by simp)]
      obtain ⟨e1', st1', h1, h2, h3, h4, h5, h6⟩ := copies_lin (M := M) (c := c) (lz := lz) (u := u)
        (k := k) (outs := outs) (e' := e') (st' := st') fun m hm => h m (by simp [hm])
      refine ⟨e1', st1', h1, h2, h3, h4, fun m i hm => h5 m i (by simp at hm; simp [hm]), ?_⟩
      intro m hm hlm i hi
      rw [List.map_cons, List.mem_cons] at hm
      rcases hm with rfl | hm
      · rw [hl] at hlm; cases hlm
      · exact h6 m hm hlm i hi
    | true =>
      rw [if_pos rfl]
      obtain ⟨ys, H1, g1, g2, g3, g4⟩ := copyN_eqv hxy (u.count n)
      obtain ⟨e2, b1, b2, b3⟩ := bindCopies (n := n) (s := 0) (e := e') g2
      rw [← List.range_eq_range'] at b1
      have braw : ∀ m, e2 (.raw m) = e' (.raw m) := fun m => b3 _ (fun i _ _ hh => by cases hh)
      have bcp : ∀ m i, m ≠ n → e2 (.cp m i) = e' (.cp m i) := fun m i hm =>
        b3 _ (fun j _ _ hh => by injection hh with h1 h2; exact hm h1)
      obtain ⟨e1', st1', h1, h2, h3, h4, h5, h6⟩ := copies_lin (M := M) (c := c) (lz := lz) (u := u)
        (k := k) (outs := outs) (e' := e2) (st' := ⟨st'.w, H1⟩) fun m hm => by
          obtain ⟨x, y, a1, a2, a3⟩ := h m (by simp [hm])
          exact ⟨x, y, a1, by rw [braw]; exact a2, a3.mono (Ext.refl _) g3⟩
      refine ⟨e1', st1', ?_, h2, g3.trans h3, fun m => (h4 m).trans (braw m), ?_, ?_⟩
      · rw [exec]
        simp only [getAll, hy, Option.map_some, Out.ofOption, Out.bind, opStep, g1, b1]
        exact h1
      · intro m i hm
        rw [List.map_cons, List.mem_cons, not_or] at hm
        rw [h5 m i hm.2]
        exact bcp m i hm.1
      · intro m hm hlm i hi
        by_cases hmo : m ∈ outs.map Prod.fst
        · exact h6 m hmo hlm i hi
        · have hmn : m = n := by
            rw [List.map_cons, List.mem_cons] at hm
            exact hm.resolve_right hmo
          subst hmn
          obtain ⟨z, hz1, hz2⟩ := b2 i (Nat.zero_le _) (by omega)
          exact ⟨x, z, hx, by rw [h5 m i hmo]; exact hz2, (g4 z hz1).mono (Ext.refl _) h3⟩

/-- What follows a definition. -/
theorem next_lin {M : Machine W L} {c : Callee W} {lz : ν → Bool} {u : List ν} {k : Body (Nm ν) L}
    {e : Env ν} {e' : Env (Nm ν)} {outs : List (ν × Bool)} {H H' : Heap}
    (he : EnvLin lz u H H' e e') {r r' : St W × List Val} (hr : R2 H H' r r')
    {f : Env ν → St W → Out (St W × List Val)}
    (hk : ∀ (e1 : Env ν) (e1' : Env (Nm ν)) (st1' : St W), r.1.w = st1'.w →
      EnvLin lz u r.1.heap st1'.heap e1 e1' →
      Out.Agree (R2 r.1.heap st1'.heap) (f e1 r.1) (exec M c k e1' st1')) :
    Out.Agree (R2 H H') ((Out.ofOption (bindAll e outs r.2)).bind fun e1 => f e1 r.1)
      ((Out.ofOption (bindAll e' (rawOuts outs) r'.2)).bind fun e1 =>
        exec M c (insertCopies lz u k outs) e1 r'.1) := by
  obtain ⟨h1, h2, h3, h4⟩ := hr
  cases hb : bindAll e outs r.2 with
  | none => exact Out.Agree.stuck
  | some e1 =>
    obtain ⟨e1', g1, g2⟩ := bindAll_lin (e' := e') h4 hb
    rw [g1]
    show Out.Agree _ (f e1 r.1) (exec M c (insertCopies lz u k outs) e1' r'.1)
    obtain ⟨e2', st2', a1, a2, a3, a4, a5, a6⟩ := copies_lin (M := M) (c := c) (lz := lz) (u := u)
      (k := k) (st' := r'.1) g2.new
    rw [a1]
    refine (hk e1 e2' st2' (h1.trans a2.symm) ?_).mono ?_
    · intro n x hx
      by_cases hn : n ∈ outs.map Prod.fst
      · refine ⟨fun hl i hi => ?_, fun hl => ?_⟩
        · obtain ⟨x', y, b1, b2, b3⟩ := a6 n hn hl i hi
          rw [hx] at b1
          cases b1
          exact ⟨y, b2, b3⟩
        · obtain ⟨x', y, b1, b2, b3⟩ := g2.new n hn
          rw [hx] at b1
          cases b1
          exact ⟨y, by rw [a4]; exact b2, b3.mono (Ext.refl _) a3⟩
      · obtain ⟨o1, o2⟩ := g2.old n hn
        rw [o1] at hx
        obtain ⟨c1, c2⟩ := he n x hx
        refine ⟨fun hl i hi => ?_, fun hl => ?_⟩
        · obtain ⟨y, b1, b2⟩ := c1 hl i hi
          exact ⟨y, by rw [a5 n i hn, g2.cps]; exact b1, b2.mono h2 (h3.trans a3)⟩
        · obtain ⟨y, b1, b2⟩ := c2 hl
          exact ⟨y, by rw [a4, o2]; exact b1, b2.mono h2 (h3.trans a3)⟩
    · rintro x y ⟨c1, c2, c3, c4⟩
      exact ⟨c1, h2.trans c2, (h3.trans a3).trans c3, c4⟩

theorem noNames_lin (lz : ν → Bool) (u : List ν) (H H' : Heap) : EnvLin lz u H H' noNames noNames := by
  intro n x h; simp [noNames] at h

def CalleeEqv (c c' : Callee W) : Prop :=
  ∀ key (st st' : St W) vs vs', st.w = st'.w → EqvL st.heap st'.heap vs vs' →
    Out.Agree (R2 st.heap st'.heap) (c key st vs) (c' key st' vs')

mutual
theorem exec_lin {M : Machine W L} {c c' : Callee W} (hc : CalleeEqv c c') :
    ∀ (b : Body ν L), b.all Op.middle = true → ∀ {lz : ν → Bool} {e : Env ν} {e' : Env (Nm ν)}
      {st st' : St W}, st.w = st'.w → EnvLin lz b.uses st.heap st'.heap e e' →
      Out.Agree (R2 st.heap st'.heap) (exec M c b e st) (exec M c' (linearize lz b) e' st')
  | .ret outs, _, lz, e, e', st, st', hw, he => by
    simp only [exec, linearize]
    refine Out.Agree.bind (ins_lin (by simpa [Body.uses] using he)) ?_
    intro vs vs' hv
    exact ⟨hw, Ext.refl _, Ext.refl _, hv⟩
  | .op o ins outs k, hb, lz, e, e', st, st', hw, he => by
    simp only [Body.all, Bool.and_eq_true] at hb
    rw [Body.uses] at he
    rw [linearize, exec, exec]
    refine Out.Agree.bind (ins_lin he) ?_
    intro vs vs' hv
    refine Out.Agree.bind (opStep_eqv hb.1 hw hv) ?_
    intro r r' hr
    exact next_lin he.tail hr fun e1 e1' st1' hw1 h => exec_lin hc k hb.2 hw1 h
  | .cond ins cs outs k, hb, lz, e, e', st, st', hw, he => by
    simp only [Body.all, Bool.and_eq_true] at hb
    rw [Body.uses] at he
    rw [linearize, exec, exec]
    refine Out.Agree.bind (ins_lin he) ?_
    intro vs vs' hv
    refine Out.Agree.bind (R := R2 st.heap st'.heap) ?_ ?_
    · cases vs with
      | nil => exact Out.Agree.stuck
      | cons v rest =>
        cases v with
        | sum t xs =>
          obtain ⟨y, ys, rfl, h1, h2⟩ := eqvL_cons_inv hv
          simp only [Eqv] at h1
          obtain ⟨xs', rfl, h1⟩ := h1
          exact execCase_lin hc cs hb.1 hw (h1.append h2)
        | _ => exact Out.Agree.stuck
    · intro r r' hr
      exact next_lin he.tail hr fun e1 e1' st1' hw1 h => exec_lin hc k hb.2 hw1 h
  | .dfg ins bins b outs k, hb, lz, e, e', st, st', hw, he => by
    simp only [Body.all, Bool.and_eq_true] at hb
    rw [Body.uses] at he
    rw [linearize, exec, exec]
    refine Out.Agree.bind (ins_lin he) ?_
    intro vs vs' hv
    refine Out.Agree.bind (R := R2 st.heap st'.heap) ?_ ?_
    · exact next_lin (r := (st, vs)) (r' := (st', vs')) (f := exec M c b)
        (noNames_lin _ _ _ _) ⟨hw, Ext.refl _, Ext.refl _, hv⟩
        fun e1 e1' st1' hw1 h => exec_lin hc b hb.1 hw1 h
    · intro r r' hr
      exact next_lin he.tail hr fun e1 e1' st1' hw1 h => exec_lin hc k hb.2 hw1 h
  | .call key ins outs k, hb, lz, e, e', st, st', hw, he => by
    simp only [Body.all] at hb
    rw [Body.uses] at he
    rw [linearize, exec, exec]
    refine Out.Agree.bind (ins_lin he) ?_
    intro vs vs' hv
    refine Out.Agree.bind (hc key st st' vs vs' hw hv) ?_
    intro r r' hr
    exact next_lin he.tail hr fun e1 e1' st1' hw1 h => exec_lin hc k hb hw1 h
theorem execCase_lin {M : Machine W L} {c c' : Callee W} (hc : CalleeEqv c c') :
    ∀ (cs : Cases ν L), cs.all Op.middle = true → ∀ {t : Nat} {st st' : St W} {vs vs' : List Val},
      st.w = st'.w → EqvL st.heap st'.heap vs vs' →
      Out.Agree (R2 st.heap st'.heap) (execCase M c cs t st vs) (execCase M c' (linearizeC cs) t st' vs')
  | .nil, _, _, _, _, _, _, _, _ => by
    simp only [execCase]
    exact Out.Agree.stuck
  | .cons bins b cs, hb, 0, st, st', vs, vs', hw, hv => by
    simp only [Cases.all, Bool.and_eq_true] at hb
    rw [linearizeC, execCase, execCase]
    exact next_lin (r := (st, vs)) (r' := (st', vs')) (f := exec M c b)
      (noNames_lin _ _ _ _) ⟨hw, Ext.refl _, Ext.refl _, hv⟩
      fun e1 e1' st1' hw1 h => exec_lin hc b hb.1 hw1 h
  | .cons bins b cs, hb, t + 1, st, st', vs, vs', hw, hv => by
    simp only [Cases.all, Bool.and_eq_true] at hb
    rw [linearizeC, execCase, execCase]
    exact execCase_lin hc cs hb.2 hw hv
end

theorem after_eqv {c c' : Callee W} (hc : CalleeEqv c c') (succs : List (Option Nat)) (key : Key)
    {H H' : Heap} {r r' : St W × List Val} (hr : R2 H H' r r') :
    Out.Agree (R2 H H') (after c succs key r) (after c' succs key r') := by
  obtain ⟨h1, h2, h2', h3⟩ := hr
  have hcall : ∀ key vs vs', EqvL r.1.heap r'.1.heap vs vs' →
      Out.Agree (R2 H H') (c key r.1 vs) (c' key r'.1 vs') := by
    intro key vs vs' hv
    refine (hc key r.1 r'.1 vs vs' h1 hv).mono ?_
    rintro x y ⟨a1, a2, a3, a4⟩
    exact ⟨a1, h2.trans a2, h2'.trans a3, a4⟩
  obtain ⟨st, vs⟩ := r
  obtain ⟨st', vs'⟩ := r'
  dsimp only at h1 h2 h2' h3 hcall
  cases key with
  | fn f => exact ⟨h1, h2, h2', h3⟩
  | loop f =>
    cases vs with
    | nil => exact Out.Agree.stuck
    | cons v rest =>
      obtain ⟨y, ys, rfl, g1, g2⟩ := eqvL_cons_inv h3
      cases v with
      | sum t xs =>
        simp only [Eqv] at g1
        obtain ⟨xs', rfl, g1⟩ := g1
        match t with
        | 0 => exact hcall _ _ _ (g1.append g2)
        | 1 => exact ⟨h1, h2, h2', g1.append g2⟩
        | t + 2 => exact Out.Agree.stuck
      | _ => exact Out.Agree.stuck
  | block f =>
    cases vs with
    | nil => exact Out.Agree.stuck
    | cons v rest =>
      obtain ⟨y, ys, rfl, g1, g2⟩ := eqvL_cons_inv h3
      cases v with
      | sum t xs =>
        simp only [Eqv] at g1
        obtain ⟨xs', rfl, g1⟩ := g1
        simp only [after]
        cases succs[t]? with
        | none => exact Out.Agree.stuck
        | some g =>
          cases g with
          | none => exact ⟨h1, h2, h2', g1.append g2⟩
          | some g => exact hcall _ _ _ (g1.append g2)
      | _ => exact Out.Agree.stuck

theorem run_lin {M : Machine W L} {P : Nat → Option (Def ν L)}
    (hP : ∀ f d, P f = some d → d.body.all Op.middle = true) (n : Nat) :
    CalleeEqv (run M P n) (run M (fun f => (P f).map Def.linearize) n) := by
  induction n with
  | zero => intro key st st' vs vs' _ _; trivial
  | succ n ih =>
    intro key st st' vs vs' hw hv
    rw [run, run]
    cases hd : P key.index with
    | none => exact Out.Agree.stuck
    | some d =>
      dsimp only [Option.map_some]
      refine Out.Agree.bind (R := R2 st.heap st'.heap) ?_ fun r r' hr => after_eqv ih d.succs key hr
      unfold execDef
      exact next_lin (r := (st, vs)) (r' := (st', vs')) (f := exec M (run M P n) d.body)
        (noNames_lin _ _ _ _) ⟨hw, Ext.refl _, Ext.refl _, hv⟩
        fun e1 e1' st1' hw1 h => exec_lin ih d.body (hP _ d hd) hw1 h

/-! ### Both steps -/

mutual
theorem Rep.eqv {H H' : Heap} : ∀ {x y z : Val}, Rep H x y → Eqv H H' y z → Rep H' x z
  | .o b, y, z, h, h' => by
    rw [Rep] at h
    rcases h with rfl | ⟨i, rfl, hi⟩
    · rw [h'.clean (by simp [Val.clean, cleanL, bool])]
      rw [Rep]; exact Or.inl rfl
    · rw [Eqv] at h'
      obtain ⟨ys, rfl, h1⟩ := h'
      obtain ⟨y, rfl, h4⟩ := eqvL_one_inv h1
      simp only [Eqv] at h4
      obtain ⟨j, b', rfl, h2, h3⟩ := h4
      rw [hi] at h2
      cases h2
      rw [Rep]; exact Or.inr ⟨j, rfl, h3⟩
  | .fut _, _, _, h, _ => by simp [Rep] at h
  | .lin q, y, z, h, h' => by simp only [Rep] at h; subst h; simpa [Eqv, Rep] using h'
  | .nat q, y, z, h, h' => by simp only [Rep] at h; subst h; simpa [Eqv, Rep] using h'
  | .hole, y, z, h, h' => by simp only [Rep] at h; subst h; simpa [Eqv, Rep] using h'
  | .sum t xs, y, z, h, h' => by
    rw [Rep] at h
    obtain ⟨ys, rfl, h⟩ := h
    rw [Eqv] at h'
    obtain ⟨zs, rfl, h'⟩ := h'
    rw [Rep]
    exact ⟨zs, rfl, RepL.eqv h h'⟩
theorem RepL.eqv {H H' : Heap} : ∀ {xs ys zs : List Val}, RepL H xs ys → EqvL H H' ys zs → RepL H' xs zs
  | [], ys, zs, h, h' => by
    rw [repL_nil_inv h] at h'
    rw [eqvL_nil_inv h']
    exact repL_nil
  | x :: xs, ys, zs, h, h' => by
    obtain ⟨y, ys, rfl, h1, h2⟩ := repL_cons_inv h
    obtain ⟨z, zs, rfl, g1, g2⟩ := eqvL_cons_inv h'
    exact repL_cons (Rep.eqv h1 g1) (RepL.eqv h2 g2)
end

mutual
theorem rep_eqv_refl {H : Heap} : ∀ {x y : Val}, Rep H x y → Eqv H H y y
  | .o b, y, h => by
    rw [Rep] at h
    rcases h with rfl | ⟨i, rfl, hi⟩
    · exact eqv_clean _ _ (by simp [Val.clean, cleanL, bool])
    · rw [Eqv]
      refine ⟨_, rfl, eqvL_one ?_⟩
      rw [Eqv]
      exact ⟨i, b, rfl, hi, hi⟩
  | .fut _, _, h => by simp [Rep] at h
  | .lin q, y, h => by simp only [Rep] at h; subst h; simp [Eqv]
  | .nat q, y, h => by simp only [Rep] at h; subst h; simp [Eqv]
  | .hole, y, h => by simp only [Rep] at h; subst h; simp [Eqv]
  | .sum t xs, y, h => by
    rw [Rep] at h
    obtain ⟨ys, rfl, h⟩ := h
    rw [Eqv]
    exact ⟨ys, rfl, repL_eqv_refl h⟩
theorem repL_eqv_refl {H : Heap} : ∀ {xs ys : List Val}, RepL H xs ys → EqvL H H ys ys
  | [], ys, h => by rw [repL_nil_inv h]; exact eqvL_nil
  | x :: xs, ys, h => by
    obtain ⟨y, ys, rfl, h1, h2⟩ := repL_cons_inv h
    exact eqvL_cons (rep_eqv_refl h1) (repL_eqv_refl h2)
end

mutual
theorem replace_noFut : ∀ (v : Val), v.noFut = true → v.replace.noFut = true
  | .o b, _ => by simp [Val.replace, Val.noFut, noFutL, bool]
  | .fut _, h => by simp [Val.noFut] at h
  | .lin _, _ => rfl
  | .nat _, _ => rfl
  | .hole, _ => rfl
  | .sum t xs, h => by
    simp only [Val.replace, Val.noFut] at *
    exact replaceL_noFut xs h
theorem replaceL_noFut : ∀ (vs : List Val), noFutL vs = true → noFutL (replaceL vs) = true
  | [], _ => rfl
  | x :: xs, h => by
    simp only [noFutL, replaceL, Bool.and_eq_true] at *
    exact ⟨replace_noFut x h.1, replaceL_noFut xs h.2⟩
end

theorem lowerOp_middle {o o' : Op L} (ho : o.source = true) (hl : lowerOp o = .inl o') :
    o'.middle = true := by
  cases o with
  | const v =>
    simp only [lowerOp, Sum.inl.injEq] at hl
    subst hl
    exact replace_noFut v ho
  | clone lz => cases lz <;> simp [lowerOp] at hl; subst hl; rfl
  | discard lz => cases lz <;> simp [lowerOp] at hl <;> subst hl <;> rfl
  | get lz size => cases lz <;> simp [lowerOp] at hl; subst hl; rfl
  | _ => simp_all [lowerOp, Op.source, Op.middle] <;> (subst hl; rfl)

theorem template_middle {o : Op L} {bins : List (Nat × Bool)} {b : Body Nat L}
    (hl : lowerOp o = .inr (bins, b)) : b.all Op.middle = true := by
  cases o with
  | clone lz => cases lz <;> simp [lowerOp] at hl; obtain ⟨rfl, rfl⟩ := hl; rfl
  | discard lz => cases lz <;> simp [lowerOp] at hl
  | get lz size => cases lz <;> simp [lowerOp] at hl; obtain ⟨rfl, rfl⟩ := hl; rfl
  | _ => simp [lowerOp] at hl <;> (obtain ⟨rfl, rfl⟩ := hl; rfl)

mutual
theorem lowerOps_middle : ∀ (b : Body Nat L), b.all Op.source = true →
    (lowerOps b).all Op.middle = true
  | .ret _, _ => rfl
  | .op o ins outs k, h => by
    simp only [Body.all, Bool.and_eq_true] at h
    rw [lowerOps]
    cases hl : lowerOp o with
    | inl o' =>
      simp only [Body.all, Bool.and_eq_true]
      exact ⟨lowerOp_middle h.1 hl, lowerOps_middle k h.2⟩
    | inr t =>
      simp only [Body.all, Bool.and_eq_true]
      exact ⟨template_middle hl, lowerOps_middle k h.2⟩
  | .cond ins cs outs k, h => by
    simp only [Body.all, Bool.and_eq_true, lowerOps] at *
    exact ⟨lowerOpsC_middle cs h.1, lowerOps_middle k h.2⟩
  | .dfg ins bins b outs k, h => by
    simp only [Body.all, Bool.and_eq_true, lowerOps] at *
    exact ⟨lowerOps_middle b h.1, lowerOps_middle k h.2⟩
  | .call key ins outs k, h => by
    simp only [Body.all, lowerOps] at *
    exact lowerOps_middle k h
theorem lowerOpsC_middle : ∀ (cs : Cases Nat L), cs.all Op.source = true →
    (lowerOpsC cs).all Op.middle = true
  | .nil, _ => rfl
  | .cons bins b cs, h => by
    simp only [Cases.all, Bool.and_eq_true, lowerOpsC] at *
    exact ⟨lowerOps_middle b h.1, lowerOpsC_middle cs h.2⟩
end

theorem lowerTable_eq (P : Nat → Option (Def Nat L)) :
    lowerTable P = fun f => (lowerOpsTable P f).map Def.linearize := by
  funext f
  unfold lowerTable lowerOpsTable
  cases P f <;> rfl

/-- The whole pass. -/
theorem run_same {M : Machine W L} {P : Nat → Option (Def Nat L)}
    (hP : ∀ f d, P f = some d → d.body.all Op.source = true) (n : Nat) :
    CalleeRep (run M P n) (run M (lowerTable P) n) := by
  intro key st st' vs vs' hw hv
  have h1 := run_rep (M := M) hP n key st st' vs vs' hw hv
  have h2 := run_lin (M := M) (P := lowerOpsTable P) (fun f d hd => by
    unfold lowerOpsTable at hd
    obtain ⟨d0, h, rfl⟩ := Option.map_eq_some_iff.mp hd
    exact lowerOps_middle d0.body (hP f d0 h)) n key st' st' vs' vs' rfl (repL_eqv_refl hv)
  rw [lowerTable_eq]
  revert h1 h2
  generalize run M P n key st vs = a
  generalize run M (lowerOpsTable P) n key st' vs' = b
  generalize run M (fun f => (lowerOpsTable P f).map Def.linearize) n key st' vs' = c
  intro h1 h2
  cases a with
  | ok a =>
    cases b with
    | ok b =>
      cases c with
      | ok c =>
        obtain ⟨a1, a2, a3⟩ := h1
        obtain ⟨b1, b2, b3, b4⟩ := h2
        exact ⟨a1.trans b1, b3, a3.eqv b4⟩
      | _ => exact h2.elim
    | _ => exact h1.elim
  | panic => cases b <;> cases c <;> simp_all [Out.Agree]
  | fuel => cases b <;> cases c <;> simp_all [Out.Agree]
  | stuck => exact Out.Agree.stuck

end Verif.LazyBool
