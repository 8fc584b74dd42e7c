import Verif.Model.Params
import Mathlib.Tactic.Common

/-! # Lemmas about the parameter parser: fuel -/

namespace Verif.Params

variable {F : Type}

/-! ### More fuel gives the same result -/

/-- `b` is `a`, unless `a` ran out of fuel. -/
def Res.Le {α : Type} (a b : Res α) : Prop := a = .oof ∨ a = b

theorem Res.Le.refl {α : Type} (a : Res α) : a.Le a := Or.inr rfl

theorem Res.Le.trans {α : Type} {a b c : Res α} (h1 : a.Le b) (h2 : b.Le c) : a.Le c := by
  rcases h1 with h | rfl
  · exact Or.inl h
  · exact h2

theorem Res.Le.or {α : Type} {a a' : Res α} {b b' : Unit → Res α} (h1 : a.Le a')
    (h2 : (b ()).Le (b' ())) : (a.or b).Le (a'.or b') := by
  rcases h1 with rfl | rfl
  · exact Or.inl rfl
  · cases a with
    | ok x r => exact Or.inr rfl
    | oof => exact Or.inl rfl
    | fail => exact h2

theorem Res.Le.bind {α β : Type} {a a' : Res α} {f f' : α → List Char → Res β} (h1 : a.Le a')
    (h2 : ∀ x r, (f x r).Le (f' x r)) : (a.bind f).Le (a'.bind f') := by
  rcases h1 with rfl | rfl
  · exact Or.inl rfl
  · cases a with
    | ok x r => exact h2 x r
    | oof => exact Or.inl rfl
    | fail => exact Or.inr rfl

theorem paren_mono {e e' : List Char → Res (Ast F)} (h : ∀ s, (e s).Le (e' s)) (s : List Char) :
    (paren e s).Le (paren e' s) :=
  (Res.Le.refl _).bind fun _ _ => (h _).bind fun _ _ => Res.Le.refl _

theorem moreArgs_mono {e e' : List Char → Res (Ast F)} (h : ∀ s, (e s).Le (e' s)) :
    ∀ {n m : Nat} (_ : n ≤ m) (s : List Char), (moreArgs e n s).Le (moreArgs e' m s)
  | 0, _, _, _ => Or.inl rfl
  | n + 1, 0, hm, _ => absurd hm (Nat.not_succ_le_zero _)
  | n + 1, m + 1, hm, s =>
    Res.Le.or ((Res.Le.refl _).bind fun _ _ => (h _).bind fun _ _ =>
      (moreArgs_mono h (Nat.le_of_succ_le_succ hm) _).bind fun _ _ => Res.Le.refl _)
      (Res.Le.refl _)

theorem fcall_mono {e e' : List Char → Res (Ast F)} (h : ∀ s, (e s).Le (e' s)) {n m : Nat}
    (hm : n ≤ m) (s : List Char) : (fcall e n s).Le (fcall e' m s) := by
  unfold fcall
  cases ident s with
  | none => exact Res.Le.refl _
  | some x =>
    exact Res.Le.or (Res.Le.refl _) ((Res.Le.refl _).bind fun _ _ => (h _).bind fun _ _ =>
      (moreArgs_mono h hm _).bind fun _ _ => Res.Le.refl _)

theorem implMul_mono {A : Arith F} {e e' : List Char → Res (Ast F)} (h : ∀ s, (e s).Le (e' s))
    {n m : Nat} (hm : n ≤ m) (s : List Char) : (implMul A e n s).Le (implMul A e' m s) :=
  (Res.Le.refl _).bind fun _ _ =>
    (Res.Le.or (paren_mono h _) (Res.Le.or (fcall_mono h hm _) (Res.Le.refl _))).bind
      fun _ _ => Res.Le.refl _

theorem termStep_mono {A : Arith F} {e e' t t' : List Char → Res (Ast F)}
    (h : ∀ s, (e s).Le (e' s)) (ht : ∀ s, (t s).Le (t' s)) {n m : Nat} (hm : n ≤ m)
    (s : List Char) : (termStep A e t n s).Le (termStep A e' t' m s) :=
  Res.Le.or (paren_mono h s) (Res.Le.or (implMul_mono h hm s) (Res.Le.or (Res.Le.refl _)
    (Res.Le.or ((Res.Le.refl _).bind fun _ _ => (ht _).bind fun _ _ => Res.Le.refl _)
      (Res.Le.or (fcall_mono h hm s) (Res.Le.refl _)))))

theorem tail_mono {t t' : List Char → Res (Ast F)} (h : ∀ s, (t s).Le (t' s)) :
    ∀ {n m : Nat} (_ : n ≤ m) (s : List Char), (tail t n s).Le (tail t' m s)
  | 0, _, _, _ => Or.inl rfl
  | n + 1, 0, hm, _ => absurd hm (Nat.not_succ_le_zero _)
  | n + 1, m + 1, hm, s => by
    unfold tail
    cases infixOp (skipWs s) with
    | none => exact Res.Le.refl _
    | some x =>
      exact Res.Le.or ((h _).bind fun _ _ =>
        (tail_mono h (Nat.le_of_succ_le_succ hm) _).bind fun _ _ => Res.Le.refl _) (Res.Le.refl _)

theorem term_expr_mono (A : Arith F) : ∀ {n m : Nat} (_ : n ≤ m),
    (∀ s, (term A n s).Le (term A m s)) ∧ (∀ s, (expr A n s).Le (expr A m s))
  | 0, _, _ => ⟨fun _ => Or.inl (by unfold term; rfl), fun _ => Or.inl (by unfold expr; rfl)⟩
  | n + 1, 0, hm => absurd hm (Nat.not_succ_le_zero _)
  | n + 1, m + 1, hm => by
    have hm' := Nat.le_of_succ_le_succ hm
    obtain ⟨h1, h2⟩ := term_expr_mono A hm'
    constructor
    · intro s
      unfold term
      exact termStep_mono h2 h1 hm' s
    · intro s
      unfold expr
      exact (h1 s).bind fun _ _ => (tail_mono h1 hm' _).bind fun _ _ => Res.Le.refl _

theorem parameter_mono (A : Arith F) {n m : Nat} (hm : n ≤ m) (s : List Char) :
    (parameter A n s).Le (parameter A m s) :=
  ((term_expr_mono A hm).2 _).bind fun _ _ => Res.Le.refl _

/-! ### Rules consume their input -/

theorem dropWhile_length {p : Char → Bool} : ∀ {s : List Char},
    (s.dropWhile p).length ≤ s.length
  | [] => Nat.le_refl _
  | c :: cs => by
    unfold List.dropWhile
    split
    · exact Nat.le_succ_of_le dropWhile_length
    · exact Nat.le_refl _

theorem skipWs_length (s : List Char) : (skipWs s).length ≤ s.length := dropWhile_length

theorem ident_length {s f r : List Char} (h : ident s = some (f, r)) : r.length < s.length := by
  cases s with
  | nil => exact absurd h (by simp [ident])
  | cons c cs =>
    rw [ident] at h
    split at h
    · simp only [Option.some.injEq, Prod.mk.injEq] at h
      rw [← h.2]
      exact Nat.lt_succ_of_le dropWhile_length
    · exact absurd h (by simp)

theorem sign_length (s : List Char) : (sign s).2.length ≤ s.length := by
  cases s with
  | nil => exact Nat.le_refl _
  | cons c cs =>
    rw [sign]
    split
    · exact Nat.le_succ _
    · exact Nat.le_refl _

theorem expSign_length (s : List Char) : (expSign s).2.length ≤ s.length := by
  cases s with
  | nil => exact Nat.le_refl _
  | cons c cs =>
    rw [expSign]
    split
    · exact Nat.le_succ _
    · exact Nat.le_refl _

theorem intPart_length {s f r : List Char} (h : intPart s = some (f, r)) :
    r.length < s.length := by
  cases s with
  | nil => exact absurd h (by simp [intPart])
  | cons c cs =>
    rw [intPart] at h
    split at h
    · simp only [Option.some.injEq, Prod.mk.injEq] at h
      rw [← h.2]
      exact Nat.lt_succ_self _
    · split at h
      · simp only [Option.some.injEq, Prod.mk.injEq] at h
        rw [← h.2]
        exact Nat.lt_succ_of_le dropWhile_length
      · exact absurd h (by simp)

theorem fracPart_length (s : List Char) : (fracPart s).2.length ≤ s.length := by
  cases s with
  | nil => exact Nat.le_refl _
  | cons c cs =>
    rw [fracPart]
    split
    · exact Nat.le_succ_of_le dropWhile_length
    · exact Nat.le_refl _

theorem expPart_length (s : List Char) : (expPart s).2.length ≤ s.length := by
  cases s with
  | nil => exact Nat.le_refl _
  | cons c cs =>
    rw [expPart.eq_def]
    dsimp only
    split
    · split
      · exact Nat.le_refl _
      · exact Nat.le_succ_of_le (Nat.le_trans dropWhile_length (expSign_length cs))
    · exact Nat.le_refl _

theorem num_length {s f r : List Char} (h : num s = some (f, r)) : r.length < s.length := by
  unfold num at h
  dsimp only at h
  split at h
  · exact absurd h (by simp)
  · rename_i b hb
    simp only [Option.some.injEq, Prod.mk.injEq] at h
    rw [← h.2]
    have h1 := intPart_length (f := b.1) (r := b.2) hb
    have h2 := sign_length s
    have h3 := fracPart_length b.2
    have h4 := expPart_length (fracPart b.2).2
    omega

theorem infixOp_length {s r : List Char} {o : InOp} (h : infixOp s = some (o, r)) :
    r.length < s.length := by
  cases s with
  | nil => exact absurd h (by simp [infixOp])
  | cons c cs =>
    have h' : ∀ (p : InOp) (t : List Char), t.length ≤ cs.length → some (p, t) = some (o, r) →
        r.length < (c :: cs).length := by
      intro p t ht he
      simp only [Option.some.injEq, Prod.mk.injEq] at he
      rw [← he.2]
      exact Nat.lt_succ_of_le ht
    rw [infixOp.eq_def] at h
    dsimp only at h
    by_cases h1 : c = '+'
    · rw [if_pos h1] at h; exact h' _ _ (Nat.le_refl _) h
    rw [if_neg h1] at h
    by_cases h2 : c = '-'
    · rw [if_pos h2] at h; exact h' _ _ (Nat.le_refl _) h
    rw [if_neg h2] at h
    by_cases h3 : c = '/'
    · rw [if_pos h3] at h; exact h' _ _ (Nat.le_refl _) h
    rw [if_neg h3] at h
    by_cases h4 : c = '*'
    · rw [if_pos h4] at h
      cases cs with
      | nil => exact h' _ _ (Nat.le_refl _) h
      | cons d ds =>
        dsimp only at h
        by_cases h5 : d = '*'
        · rw [if_pos h5] at h; exact h' _ _ (Nat.le_succ _) h
        · rw [if_neg h5] at h; exact h' _ _ (Nat.le_refl _) h
    · rw [if_neg h4] at h; exact absurd h (by simp)

/-- A successful match leaves less input than `k`. -/
def Res.Eats {α : Type} (k : Nat) (a : Res α) : Prop := ∀ x r, a = .ok x r → r.length < k

theorem Res.Eats.or {α : Type} {k : Nat} {a : Res α} {b : Unit → Res α} (h1 : a.Eats k)
    (h2 : (b ()).Eats k) : (a.or b).Eats k := by
  cases a with
  | ok x r => exact h1
  | oof => intro x r h; exact absurd h (by simp [Res.or])
  | fail => exact h2

theorem Res.Eats.bind {α β : Type} {k k' : Nat} {a : Res α} {f : α → List Char → Res β}
    (h1 : a.Eats k) (h2 : ∀ x r, r.length < k → (f x r).Eats k') : (a.bind f).Eats k' := by
  cases a with
  | ok x r => exact h2 x r (h1 x r rfl)
  | oof => intro x r h; exact absurd h (by simp [Res.bind])
  | fail => intro x r h; exact absurd h (by simp [Res.bind])

theorem Res.Eats.ok {α : Type} {k : Nat} {x : α} {r : List Char} (h : r.length < k) :
    (Res.ok x r).Eats k := by
  intro y r' h'
  simp only [Res.ok.injEq] at h'
  rw [← h'.2]
  exact h

theorem Res.Eats.le {α : Type} {k k' : Nat} {a : Res α} (h : a.Eats k) (hk : k ≤ k') :
    a.Eats k' := fun x r hr => Nat.lt_of_lt_of_le (h x r hr) hk

theorem lit_eats (c : Char) (s : List Char) : (lit c s).Eats s.length := by
  intro x r h
  cases s with
  | nil => exact absurd h (by simp [lit])
  | cons d s =>
    rw [lit] at h
    split at h
    · simp only [Res.ok.injEq] at h
      rw [← h.2]
      exact Nat.lt_succ_self _
    · exact absurd h (by simp)

theorem lit_eats' (c : Char) (s : List Char) : (lit c (skipWs s)).Eats s.length :=
  (lit_eats c _).le (skipWs_length s)

/-- A rule which consumes something. -/
def Eating {α : Type} (e : List Char → Res α) : Prop := ∀ s, (e s).Eats s.length

theorem Eating.skip {α : Type} {e : List Char → Res α} (h : Eating e) (s : List Char) :
    (e (skipWs s)).Eats s.length := (h _).le (skipWs_length s)

theorem paren_eats {e : List Char → Res (Ast F)} (h : Eating e) : Eating (paren e) := fun s =>
  (lit_eats '(' s).bind fun _ r hr => (h.skip r).bind fun _ r' hr' =>
    (lit_eats' ')' r').bind fun _ _ hr'' => .ok (by omega)

theorem moreArgs_eats {e : List Char → Res (Ast F)} (h : Eating e) : ∀ (n : Nat) (s : List Char),
    (moreArgs e n s).Eats (s.length + 1)
  | 0, _ => by intro x r h; exact absurd h (by simp [moreArgs])
  | n + 1, s => Res.Eats.or ((lit_eats' ',' s).bind fun _ r hr => (h.skip r).bind fun _ r' hr' =>
      (moreArgs_eats h n r').bind fun _ _ hr'' => .ok (by omega)) (.ok (Nat.lt_succ_self _))

theorem closeCall_eats : Eating closeCall := fun s =>
  Res.Eats.or ((lit_eats' ',' s).bind fun _ r hr => (lit_eats' ')' r).le (Nat.le_of_lt hr))
    (lit_eats' ')' s)

theorem fcall_eats {e : List Char → Res (Ast F)} (h : Eating e) (n : Nat) :
    Eating (fcall e n) := fun s => by
  unfold fcall
  cases hi : ident s with
  | none => intro x r h; exact absurd h (by simp)
  | some x =>
    obtain ⟨f, r0⟩ := x
    have h0 := ident_length hi
    exact Res.Eats.or
      ((lit_eats' '(' r0).bind fun _ r hr => (lit_eats ')' r).bind fun _ _ hr' => .ok (by omega))
      ((lit_eats' '(' r0).bind fun _ r hr => (h.skip r).bind fun _ r1 hr1 =>
        (moreArgs_eats h n r1).bind fun _ r2 hr2 => (closeCall_eats r2).bind fun _ _ hr3 =>
          .ok (by omega))

theorem variable_eats : Eating (variable' (F := F)) := fun s => by
  unfold variable'
  cases hi : ident s with
  | none => intro x r h; exact absurd h (by simp)
  | some x => exact .ok (ident_length hi)

theorem number_eats (A : Arith F) : Eating (number A) := fun s => by
  unfold number
  cases hi : num s with
  | none => intro x r h; exact absurd h (by simp)
  | some x => exact .ok (num_length hi)

theorem implMul_eats (A : Arith F) {e : List Char → Res (Ast F)} (h : Eating e) (n : Nat) :
    Eating (implMul A e n) := fun s =>
  (number_eats A s).bind fun _ r hr =>
    Res.Eats.bind (k := r.length) (Res.Eats.or ((paren_eats h).skip r)
      (Res.Eats.or ((fcall_eats h n).skip r) (variable_eats.skip r)))
      fun _ _ hr' => .ok (by omega)

theorem termStep_eats (A : Arith F) {e t : List Char → Res (Ast F)} (h : Eating e)
    (ht : Eating t) (n : Nat) : Eating (termStep A e t n) := fun s =>
  Res.Eats.or (paren_eats h s) (Res.Eats.or (implMul_eats A h n s) (Res.Eats.or (number_eats A s)
    (Res.Eats.or ((lit_eats '-' s).bind fun _ r hr => (ht.skip r).bind fun _ _ hr' => .ok (by omega))
      (Res.Eats.or (fcall_eats h n s) (variable_eats s)))))

theorem tail_eats {t : List Char → Res (Ast F)} (ht : Eating t) : ∀ (n : Nat) (s : List Char),
    (tail t n s).Eats (s.length + 1)
  | 0, _ => by intro x r h; exact absurd h (by simp [tail])
  | n + 1, s => by
    unfold tail
    cases hi : infixOp (skipWs s) with
    | none => exact .ok (Nat.lt_succ_self _)
    | some x =>
      obtain ⟨o, r⟩ := x
      have h0 := infixOp_length hi
      have h1 := skipWs_length s
      exact Res.Eats.or ((ht.skip r).bind fun _ r' hr' => (tail_eats ht n r').bind fun _ _ hr'' =>
        .ok (by omega)) (.ok (Nat.lt_succ_self _))

theorem term_expr_eats (A : Arith F) : ∀ n : Nat, Eating (term A n) ∧ Eating (expr A n)
  | 0 => ⟨fun s x r h => absurd h (by unfold term; simp),
      fun s x r h => absurd h (by unfold expr; simp)⟩
  | n + 1 => by
    obtain ⟨h1, h2⟩ := term_expr_eats A n
    constructor
    · intro s
      unfold term
      exact termStep_eats A h2 h1 n s
    · intro s
      unfold expr
      exact (h1 s).bind fun _ r hr => (tail_eats h1 n r).bind fun _ _ hr' => .ok (by omega)

/-! ### There is enough fuel -/

/-- Enough fuel. -/
def Res.Fed {α : Type} (a : Res α) : Prop := a ≠ .oof

theorem Res.Fed.or {α : Type} {a : Res α} {b : Unit → Res α} (h1 : a.Fed) (h2 : (b ()).Fed) :
    (a.or b).Fed := by
  cases a with
  | ok x r => intro h; exact absurd h (by simp [Res.or])
  | oof => exact absurd rfl h1
  | fail => exact h2

theorem Res.Fed.bind {α β : Type} {k : Nat} {a : Res α} {f : α → List Char → Res β} (h1 : a.Fed)
    (he : a.Eats k) (h2 : ∀ x r, r.length < k → (f x r).Fed) : (a.bind f).Fed := by
  cases a with
  | ok x r => exact h2 x r (he x r rfl)
  | oof => exact absurd rfl h1
  | fail => intro h; exact absurd h (by simp [Res.bind])

theorem Res.Fed.ok {α : Type} {x : α} {r : List Char} : (Res.ok x r).Fed := by
  intro h; exact absurd h (by simp)

theorem lit_fed (c : Char) (s : List Char) : (lit c s).Fed := by
  intro h
  cases s with
  | nil => exact absurd h (by simp [lit])
  | cons d s =>
    rw [lit] at h
    split at h <;> exact absurd h (by simp)

theorem moreArgs_fed {e : List Char → Res (Ast F)} (he : Eating e) {k : Nat}
    (h : ∀ s : List Char, s.length < k → (e s).Fed) : ∀ (n : Nat) (s : List Char),
    s.length < n → s.length ≤ k → (moreArgs e n s).Fed
  | 0, s, hn, _ => absurd hn (Nat.not_lt_zero _)
  | n + 1, s, hn, hk => Res.Fed.or ((lit_fed _ _).bind (lit_eats' ',' s) fun _ r hr =>
      Res.Fed.bind (k := r.length) (h _ (Nat.lt_of_le_of_lt (skipWs_length r) (by omega)))
        (he.skip r) fun _ r' hr' =>
        Res.Fed.bind (moreArgs_fed he h n r' (by omega) (by omega)) (moreArgs_eats he n r')
          fun _ _ _ => .ok) .ok

theorem fcall_fed {e : List Char → Res (Ast F)} (he : Eating e) {n : Nat} {s : List Char}
    (h : ∀ r : List Char, r.length < s.length → (e r).Fed) (hn : s.length ≤ n) :
    (fcall e n s).Fed := by
  unfold fcall
  cases hi : ident s with
  | none => intro h; exact absurd h (by simp)
  | some x =>
    obtain ⟨f, r0⟩ := x
    have h0 := ident_length hi
    refine Res.Fed.or ((lit_fed _ _).bind (lit_eats' '(' r0) fun _ r hr =>
      (lit_fed _ _).bind (lit_eats ')' r) fun _ _ _ => .ok) ?_
    refine (lit_fed _ _).bind (lit_eats' '(' r0) fun _ r hr => ?_
    refine Res.Fed.bind (k := r.length) (h _ (Nat.lt_of_le_of_lt (skipWs_length r) (by omega)))
      (he.skip r) fun _ r1 hr1 => ?_
    refine Res.Fed.bind (moreArgs_fed he (k := s.length) h n r1 (by omega) (by omega))
      (moreArgs_eats he n r1) fun _ r2 hr2 => ?_
    refine Res.Fed.bind (k := r2.length) ?_ (closeCall_eats r2) fun _ _ _ => .ok
    exact Res.Fed.or ((lit_fed _ _).bind (lit_eats' ',' r2) fun _ _ _ => lit_fed _ _) (lit_fed _ _)

theorem paren_fed {e : List Char → Res (Ast F)} (he : Eating e) {s : List Char}
    (h : ∀ r : List Char, r.length < s.length → (e r).Fed) : (paren e s).Fed :=
  (lit_fed _ _).bind (lit_eats '(' s) fun _ r hr =>
    Res.Fed.bind (k := r.length) (h _ (Nat.lt_of_le_of_lt (skipWs_length r) (by omega)))
      (he.skip r) fun _ r' _ => (lit_fed _ _).bind (lit_eats' ')' r') fun _ _ _ => .ok

theorem variable_fed (s : List Char) : (variable' (F := F) s).Fed := by
  unfold variable'
  cases ident s <;> intro h <;> exact absurd h (by simp)

theorem number_fed (A : Arith F) (s : List Char) : (number A s).Fed := by
  unfold number
  cases num s <;> intro h <;> exact absurd h (by simp)

theorem implMul_fed (A : Arith F) {e : List Char → Res (Ast F)} (he : Eating e) {n : Nat}
    {s : List Char} (h : ∀ r : List Char, r.length < s.length → (e r).Fed) (hn : s.length ≤ n) :
    (implMul A e n s).Fed := by
  refine (number_fed A s).bind (number_eats A s) fun _ r hr => ?_
  have h' : ∀ r' : List Char, r'.length < (skipWs r).length → (e r').Fed := fun r' hr' =>
    h r' (by have := skipWs_length r; omega)
  refine Res.Fed.bind (k := r.length) (Res.Fed.or (paren_fed he h')
    (Res.Fed.or (fcall_fed he h' (by have := skipWs_length r; omega)) (variable_fed _)))
    (Res.Eats.or ((paren_eats he).skip r)
      (Res.Eats.or ((fcall_eats he n).skip r) (variable_eats.skip r))) fun _ _ _ => .ok

theorem termStep_fed (A : Arith F) {e t : List Char → Res (Ast F)} (he : Eating e) (ht : Eating t)
    {n : Nat} {s : List Char} (h : ∀ r : List Char, r.length < s.length → (e r).Fed)
    (h' : ∀ r : List Char, r.length < s.length → (t r).Fed) (hn : s.length ≤ n) :
    (termStep A e t n s).Fed := by
  refine Res.Fed.or (paren_fed he h) (Res.Fed.or (implMul_fed A he h hn)
    (Res.Fed.or (number_fed A s) (Res.Fed.or ?_ (Res.Fed.or (fcall_fed he h hn) (variable_fed s)))))
  exact (lit_fed _ _).bind (lit_eats '-' s) fun _ r hr =>
    Res.Fed.bind (k := r.length) (h' _ (Nat.lt_of_le_of_lt (skipWs_length r) (by omega)))
      (ht.skip r) fun _ _ _ => .ok

theorem tail_fed {t : List Char → Res (Ast F)} (ht : Eating t) {k : Nat}
    (h : ∀ s : List Char, s.length < k → (t s).Fed) : ∀ (n : Nat) (s : List Char),
    s.length < n → s.length ≤ k → (tail t n s).Fed
  | 0, s, hn, _ => absurd hn (Nat.not_lt_zero _)
  | n + 1, s, hn, hk => by
    unfold tail
    cases hi : infixOp (skipWs s) with
    | none => exact .ok
    | some x =>
      obtain ⟨o, r⟩ := x
      have h0 := infixOp_length hi
      have h1 := skipWs_length s
      refine Res.Fed.or (Res.Fed.bind (k := r.length)
        (h _ (Nat.lt_of_le_of_lt (skipWs_length r) (by omega))) (ht.skip r) fun _ r' hr' => ?_) .ok
      exact Res.Fed.bind (tail_fed ht h n r' (by omega) (by omega)) (tail_eats ht n r')
        fun _ _ _ => .ok

theorem term_expr_fed (A : Arith F) : ∀ (n : Nat) (s : List Char),
    (2 * s.length + 1 ≤ n → (term A n s).Fed) ∧ (2 * s.length + 2 ≤ n → (expr A n s).Fed)
  | 0, s => ⟨fun h => by omega, fun h => by omega⟩
  | n + 1, s => by
    obtain ⟨e1, e2⟩ := term_expr_eats A n
    constructor
    · intro hn
      unfold term
      exact termStep_fed A e2 e1 (fun r hr => (term_expr_fed A n r).2 (by omega))
        (fun r hr => (term_expr_fed A n r).1 (by omega)) (by omega)
    · intro hn
      unfold expr
      refine Res.Fed.bind (k := s.length) ((term_expr_fed A n s).1 (by omega)) (e1 s)
        fun _ r hr => ?_
      exact Res.Fed.bind (tail_fed e1 (k := s.length)
        (fun r hr => (term_expr_fed A n r).1 (by omega)) n r (by omega) (by omega))
        (tail_eats e1 n r) fun _ _ _ => .ok

/-- The fuel used by `parse` is enough. -/
theorem parameter_fed (A : Arith F) (s : List Char) :
    (parameter A (2 * s.length + 2) s).Fed := by
  have h := skipWs_length s
  refine Res.Fed.bind (k := (skipWs s).length) ((term_expr_fed A _ _).2 (by omega))
    ((term_expr_eats A _).2 _) fun a r _ => ?_
  cases skipWs r <;> intro h <;> exact absurd h (by simp)

/-- The result of `parse` is what the grammar gives with any sufficient fuel. -/
theorem parse_of_parameter {A : Arith F} {n : Nat} {s r : List Char} {a : Ast F}
    (h : parameter A n s = .ok a r) : parse A s = a := by
  have h1 := parameter_mono A (Nat.le_max_left n (2 * s.length + 2)) s
  have h2 := parameter_mono A (Nat.le_max_right n (2 * s.length + 2)) s
  rcases h2 with h2 | h2
  · exact absurd h2 (parameter_fed A s)
  · rcases h1 with h1 | h1
    · rw [h] at h1; exact absurd h1 (by simp)
    · unfold parse
      rw [h2, ← h1, h]

theorem parse_of_fail {A : Arith F} {n : Nat} {s : List Char}
    (h : parameter A n s = .fail) : parse A s = .sympy s := by
  have h1 := parameter_mono A (Nat.le_max_left n (2 * s.length + 2)) s
  have h2 := parameter_mono A (Nat.le_max_right n (2 * s.length + 2)) s
  rcases h2 with h2 | h2
  · exact absurd h2 (parameter_fed A s)
  · rcases h1 with h1 | h1
    · rw [h] at h1; exact absurd h1 (by simp)
    · unfold parse
      rw [h2, ← h1, h]

end Verif.Params
