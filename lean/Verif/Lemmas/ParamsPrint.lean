import Verif.Lemmas.Params
import Verif.Model.ParamsSpec

/-! # Lemmas about the parameter parser: reading printed expressions -/

namespace Verif.Params

variable {F : Type}

theorem le_ok {α : Type} {a b : Res α} {x : α} {r : List Char} (h : a.Le b) (ha : a = .ok x r) :
    b = .ok x r := by
  rcases h with h | h
  · rw [ha] at h; exact absurd h (by simp)
  · rw [← h, ha]

theorem term_ok {A : Arith F} {n m : Nat} (hm : n ≤ m) {s r : List Char} {a : Ast F}
    (h : term A n s = .ok a r) : term A m s = .ok a r := le_ok ((term_expr_mono A hm).1 s) h

theorem expr_ok {A : Arith F} {n m : Nat} (hm : n ≤ m) {s r : List Char} {a : Ast F}
    (h : expr A n s = .ok a r) : expr A m s = .ok a r := le_ok ((term_expr_mono A hm).2 s) h

theorem tail_ok {A : Arith F} {n n' m m' : Nat} (hn : n ≤ n') (hm : m ≤ m') {s r : List Char}
    {l : List (InOp × Ast F)} (h : tail (term A n) m s = .ok l r) :
    tail (term A n') m' s = .ok l r := le_ok (tail_mono (term_expr_mono A hn).1 hm s) h

/-- Text which ends a term. -/
def Stop (rest : List Char) : Prop :=
  (∀ c ∈ rest.head?, isIdent c = false ∧ c ≠ '.') ∧
    ∀ c ∈ (skipWs rest).head?, c ≠ '(' ∧ isAlpha c = false

/-- The text `s` is read as the term `a`. -/
def TermOK (A : Arith F) (s : List Char) (a : Ast F) : Prop :=
  ∀ rest, Stop rest → ∃ n, term A n (s ++ rest) = .ok a rest

/-- After a term, `rest` continues with `l`. -/
def TailOK (A : Arith F) (rest : List Char) (l : List (InOp × Ast F)) (r : List Char) : Prop :=
  ∃ n m, tail (term A n) m rest = .ok l r

/-- The text `s` is read as the start `a`, `ops` of a chain. -/
def ChainOK (A : Arith F) (s : List Char) (a : Ast F) (ops : List (InOp × Ast F)) : Prop :=
  ∀ rest l r, Stop rest → TailOK A rest l r →
    ∃ n, expr A n (s ++ rest) = .ok (infixAst a (ops ++ l)) r

/-- The first character of a printed expression. -/
def GoodHead (s : List Char) : Prop := ∃ c cs, s = c :: cs ∧ isWs c = false ∧ c ≠ ')'

theorem stop_nil : Stop [] := ⟨by simp, by simp [skipWs]⟩

theorem stop_cons {c : Char} {cs : List Char} (h1 : isIdent c = false) (h2 : c ≠ '.')
    (h3 : isWs c = false) (h4 : c ≠ '(') : Stop (c :: cs) := by
  refine ⟨?_, ?_⟩
  · intro d hd
    simp only [List.head?_cons, Option.mem_def, Option.some.injEq] at hd
    subst hd
    exact ⟨h1, h2⟩
  · intro d hd
    rw [skipWs, List.dropWhile_cons, if_neg (by simp [h3])] at hd
    simp only [List.head?_cons, Option.mem_def, Option.some.injEq] at hd
    subst hd
    refine ⟨h4, ?_⟩
    simp only [isIdent, Bool.or_eq_false_iff] at h1
    exact h1.1.1

theorem stop_space {c : Char} {cs : List Char} (h1 : isAlpha c = false)
    (h3 : isWs c = false) (h4 : c ≠ '(') : Stop (' ' :: c :: cs) := by
  refine ⟨?_, ?_⟩
  · intro d hd
    simp only [List.head?_cons, Option.mem_def, Option.some.injEq] at hd
    subst hd
    exact ⟨by decide, by decide⟩
  · intro d hd
    rw [skipWs, List.dropWhile_cons, if_pos (by decide), List.dropWhile_cons,
      if_neg (by simp [h3])] at hd
    simp only [List.head?_cons, Option.mem_def, Option.some.injEq] at hd
    subst hd
    exact ⟨h4, h1⟩

theorem span_append {p : Char → Bool} : ∀ {cs rest : List Char} (_ : ∀ d ∈ cs, p d = true)
    (_ : ∀ c ∈ rest.head?, p c = false),
    (cs ++ rest).takeWhile p = cs ∧ (cs ++ rest).dropWhile p = rest
  | [], [], _, _ => ⟨rfl, rfl⟩
  | [], c :: cs, _, h => by
    have h' := h c (by simp)
    simp [h']
  | c :: cs, rest, h, h' => by
    have hc := h c (by simp)
    have := span_append (fun d hd => h d (List.mem_cons_of_mem _ hd)) h'
    simp [hc, this]

theorem skipWs_good {s rest : List Char} (h : GoodHead s) : skipWs (s ++ rest) = s ++ rest := by
  obtain ⟨c, cs, rfl, h1, h2⟩ := h
  simp [skipWs, h1]

theorem skipWs_cons {c : Char} {cs : List Char} (h : isWs c = false) :
    skipWs (c :: cs) = c :: cs := by simp [skipWs, h]

/-! ### Names -/

theorem ident_name {s rest : List Char} (h : IsName s)
    (hr : ∀ c ∈ rest.head?, isIdent c = false) : ident (s ++ rest) = some (s, rest) := by
  obtain ⟨c, cs, rfl, h1, h2⟩ := h
  have := span_append h2 hr
  simp [ident, h1, this]

theorem alpha_ne {c d : Char} (h : isAlpha c = true) (hd : isAlpha d = false) : c ≠ d := by
  rintro rfl
  rw [h] at hd
  exact absurd hd (by simp)

theorem lit_ne {c d : Char} {s : List Char} (h : d ≠ c) : lit c (d :: s) = .fail := by
  rw [lit, if_neg h]

theorem lit_eq {c : Char} {s : List Char} : lit c (c :: s) = .ok () s := by
  rw [lit, if_pos rfl]

theorem num_alpha {c : Char} {cs : List Char} (h : isAlpha c = true) : num (c :: cs) = none := by
  have h1 : c ≠ '-' := alpha_ne h (by decide)
  have h2 : c ≠ '0' := alpha_ne h (by decide)
  have h3 : isDigit c = false := by
    simp only [isAlpha, decide_eq_true_eq] at h
    simp only [isDigit, decide_eq_false_iff_not]
    rintro ⟨h4, h5⟩
    rcases h with ⟨h, _⟩ | ⟨h, _⟩
    · exact absurd (Char.le_trans h h5) (by decide)
    · exact absurd (Char.le_trans h h5) (by decide)
  simp [num, sign, intPart, h1, h2, h3]

/-- Before a name, the alternatives up to `function_call` fail. -/
theorem termStep_alpha {A : Arith F} {e t : List Char → Res (Ast F)} {n : Nat} {c : Char}
    {cs : List Char} (h : isAlpha c = true) :
    termStep A e t n (c :: cs) = (fcall e n (c :: cs)).or fun _ => variable' (c :: cs) := by
  have h1 : c ≠ '(' := alpha_ne h (by decide)
  have h2 : c ≠ '-' := alpha_ne h (by decide)
  simp only [termStep, paren, implMul, number, uminus, num_alpha h, lit_ne h1, lit_ne h2, Res.bind,
    Res.or]

theorem lit_stop {rest : List Char} (h : ∀ c ∈ (skipWs rest).head?, c ≠ '(' ∧ isAlpha c = false) :
    lit '(' (skipWs rest) = .fail := by
  cases hr : skipWs rest with
  | nil => rfl
  | cons c cs => exact lit_ne (h c (by rw [hr]; simp)).1

theorem ident_stop {rest : List Char}
    (h : ∀ c ∈ (skipWs rest).head?, c ≠ '(' ∧ isAlpha c = false) :
    ident (skipWs rest) = none := by
  cases hr : skipWs rest with
  | nil => rfl
  | cons c cs => simp [ident, (h c (by rw [hr]; simp)).2]

theorem fcall_name {e : List Char → Res (Ast F)} {n : Nat} {s rest : List Char} (h : IsName s)
    (hr : Stop rest) : fcall e n (s ++ rest) = .fail := by
  unfold fcall
  rw [ident_name h fun c hc => (hr.1 c hc).1]
  simp only [lit_stop hr.2, Res.bind, Res.or]

theorem variable_name {s rest : List Char} (h : IsName s) (hr : Stop rest) :
    variable' (F := F) (s ++ rest) = .ok (.var s) rest := by
  unfold variable'
  rw [ident_name h fun c hc => (hr.1 c hc).1]

theorem term_name {A : Arith F} {s : List Char} (h : IsName s) : TermOK A s (.var s) := by
  intro rest hr
  refine ⟨1, ?_⟩
  have h0 := fcall_name (e := expr A 0) (n := 0) h hr
  have h1 := variable_name (F := F) h hr
  obtain ⟨c, cs, rfl, hc, _⟩ := h
  rw [term, List.cons_append, termStep_alpha hc, ← List.cons_append, h0, h1]
  rfl

/-! ### Numbers -/

theorem isIdent_of_isDigit {c : Char} (h : isDigit c = true) : isIdent c = true := by
  simp [isIdent, h]

theorem expPart_stop {rest : List Char} (h : ∀ c ∈ rest.head?, isIdent c = false) :
    expPart rest = ([], rest) := by
  cases rest with
  | nil => rfl
  | cons c cs =>
    have h0 := h c (by simp)
    have h1 : ¬ (c = 'e' ∨ c = 'E') := by
      rintro (rfl | rfl) <;> exact absurd h0 (by decide)
    rw [expPart.eq_def]
    dsimp only
    rw [if_neg h1]

theorem fracPart_stop {rest : List Char} (h : ∀ c ∈ rest.head?, c ≠ '.') :
    fracPart rest = ([], rest) := by
  cases rest with
  | nil => rfl
  | cons c cs => rw [fracPart, if_neg (h c (by simp))]

theorem num_numeral {s rest : List Char} (h : IsNumeral s)
    (h1 : ∀ c ∈ rest.head?, isDigit c = false ∧ c ≠ '.')
    (h2 : expPart rest = ([], rest)) : num (s ++ rest) = some (s, rest) := by
  obtain ⟨sg, ip, fp, ep, rfl, hs, hi, hf, he⟩ := h
  have hep : ∀ c ∈ (ep ++ rest).head?, isDigit c = false ∧ c ≠ '.' := by
    rcases he with rfl | ⟨e, es, d, ds, rfl, hee, _, _⟩
    · exact h1
    · intro c hc
      simp only [List.cons_append, List.head?_cons, Option.mem_def, Option.some.injEq] at hc
      subst hc
      rcases hee with rfl | rfl <;> decide
  have hfp : ∀ c ∈ (fp ++ (ep ++ rest)).head?, isDigit c = false := by
    rcases hf with rfl | ⟨ds, rfl, _⟩
    · exact fun c hc => (hep c hc).1
    · intro c hc
      simp only [List.cons_append, List.head?_cons, Option.mem_def, Option.some.injEq] at hc
      subst hc
      decide
  have hint : intPart (ip ++ (fp ++ (ep ++ rest))) = some (ip, fp ++ (ep ++ rest)) := by
    rcases hi with rfl | ⟨d, ds, rfl, h0, hd, hds⟩
    · simp [intPart]
    · have := span_append hds hfp
      simp [intPart, h0, hd, this]
  have hfr : fracPart (fp ++ (ep ++ rest)) = (fp, ep ++ rest) := by
    rcases hf with rfl | ⟨ds, rfl, hds⟩
    · exact fracPart_stop fun c hc => (hep c hc).2
    · have := span_append hds fun c hc => (hep c hc).1
      simp [fracPart, this]
  have hex : expPart (ep ++ rest) = (ep, rest) := by
    rcases he with rfl | ⟨e, es, d, ds, rfl, hee, hes, hds⟩
    · exact h2
    · have hsp := span_append hds fun c hc => (h1 c hc).1
      have hd : isDigit d = true := hds d List.mem_cons_self
      have hdp : ¬ (d = '+' ∨ d = '-') := by
        rintro (rfl | rfl) <;> exact absurd hd (by decide)
      have hsg : expSign (es ++ (d :: ds) ++ rest) = (es, (d :: ds) ++ rest) := by
        rcases hes with rfl | rfl | rfl
        · show expSign (d :: (ds ++ rest)) = _
          rw [expSign, if_neg hdp]
          rfl
        · rfl
        · rfl
      show expPart (e :: (es ++ (d :: ds) ++ rest)) = _
      rw [expPart]
      simp only [if_pos hee, hsg, hsp.1, hsp.2]
      simp
  have hsg : sign (sg ++ (ip ++ (fp ++ (ep ++ rest)))) = (sg, ip ++ (fp ++ (ep ++ rest))) := by
    rcases hs with rfl | rfl
    · rcases hi with rfl | ⟨d, ds, rfl, h0, hd, hds⟩
      · rfl
      · have : d ≠ '-' := by
          rintro rfl
          exact absurd hd (by decide)
        simp [sign, this]
    · rfl
  have heq : sg ++ ip ++ fp ++ ep ++ rest = sg ++ (ip ++ (fp ++ (ep ++ rest))) := by
    simp only [List.append_assoc]
  rw [heq, num]
  simp only [hsg, hint, hfr, hex]

theorem numeral_head {s : List Char} (h : IsNumeral s) :
    ∃ c cs, s = c :: cs ∧ (c = '-' ∨ isDigit c = true) := by
  obtain ⟨sg, ip, fp, ep, rfl, rfl | rfl, hi, _⟩ := h
  · rcases hi with rfl | ⟨d, ds, rfl, _, hd, _⟩
    · exact ⟨'0', fp ++ ep, rfl, Or.inr (by decide)⟩
    · exact ⟨d, ds ++ fp ++ ep, rfl, Or.inr hd⟩
  · exact ⟨'-', ip ++ fp ++ ep, rfl, Or.inl rfl⟩

theorem paren_numeral {e : List Char → Res (Ast F)} {s rest : List Char} (h : IsNumeral s) :
    paren e (s ++ rest) = .fail := by
  obtain ⟨c, cs, rfl, hc⟩ := numeral_head h
  have : c ≠ '(' := by
    rintro rfl
    rcases hc with hc | hc <;> exact absurd hc (by decide)
  simp only [paren, List.cons_append, lit_ne this, Res.bind]

theorem number_numeral {A : Arith F} {s rest : List Char} (h : IsNumeral s) (hr : Stop rest) :
    number A (s ++ rest) = .ok (.const (A.read s)) rest := by
  unfold number
  rw [num_numeral h _ (expPart_stop fun c hc => (hr.1 c hc).1)]
  intro c hc
  refine ⟨?_, (hr.1 c hc).2⟩
  by_contra hd
  have := (hr.1 c hc).1
  rw [isIdent_of_isDigit (by simpa using hd)] at this
  exact absurd this (by simp)

theorem term_numeral {A : Arith F} {s : List Char} (h : IsNumeral s) :
    TermOK A s (.const (A.read s)) := by
  intro rest hr
  refine ⟨1, ?_⟩
  have h1 := number_numeral (A := A) h hr
  rw [term, termStep, paren_numeral h]
  have h2 : implMul A (expr A 0) 0 (s ++ rest) = .fail := by
    simp only [implMul, h1, paren, fcall, variable', lit_stop hr.2, ident_stop hr.2, Res.bind,
      Res.or]
  rw [h2, h1]
  rfl

/-- Implicit multiplication of a number and a name. -/
theorem term_implMul {A : Arith F} {s t : List Char} (h : IsNumeral s) (ht : IsName t)
    (he : ∀ c ∈ t.head?, c ≠ 'e' ∧ c ≠ 'E') :
    TermOK A (s ++ t) (.bin .mul (.const (A.read s)) (.var t)) := by
  intro rest hr
  refine ⟨1, ?_⟩
  have h0 := fcall_name (e := expr A 0) (n := 0) ht hr
  have h1 := variable_name (F := F) ht hr
  have h2 : number A (s ++ (t ++ rest)) = .ok (.const (A.read s)) (t ++ rest) := by
    unfold number
    obtain ⟨c, cs, rfl, hc, _⟩ := ht
    have hce := he c (by simp)
    have hd : isDigit c = false := by
      by_contra hd
      have := num_alpha (cs := []) hc
      simp only [Bool.not_eq_false] at hd
      have h0 : c ≠ '-' := alpha_ne hc (by decide)
      have h1 : c ≠ '0' := alpha_ne hc (by decide)
      simp [num, sign, intPart, h0, h1, hd] at this
    rw [num_numeral h]
    · intro d hd'
      simp only [List.cons_append, List.head?_cons, Option.mem_def, Option.some.injEq] at hd'
      subst hd'
      exact ⟨hd, alpha_ne hc (by decide)⟩
    · rw [List.cons_append, expPart.eq_def]
      dsimp only
      rw [if_neg (by rintro (h | h) <;> [exact hce.1 h; exact hce.2 h])]
  have hsk : skipWs (t ++ rest) = t ++ rest := by
    obtain ⟨c, cs, rfl, hc, _⟩ := ht
    have : isWs c = false := by
      by_contra hw
      simp only [isWs, Bool.not_eq_false, Bool.or_eq_true, beq_iff_eq] at hw
      rcases hw with rfl | rfl <;> exact absurd hc (by decide)
    exact skipWs_cons this
  have hp : paren (expr A 0) (t ++ rest) = .fail := by
    obtain ⟨c, cs, rfl, hc, _⟩ := ht
    simp only [paren, List.cons_append, lit_ne (alpha_ne hc (show isAlpha '(' = false by decide)),
      Res.bind]
  rw [term, List.append_assoc, termStep, paren_numeral h]
  simp only [implMul, h2, hsk, hp, h0, h1, Res.bind, Res.or]

/-! ### Chains -/

theorem tail_stop {A : Arith F} {rest : List Char} (h : infixOp (skipWs rest) = none) :
    TailOK A rest [] rest := by
  refine ⟨0, 1, ?_⟩
  rw [tail, h]

theorem tail_cons {A : Arith F} {rest s r' r : List Char} {o : InOp} {a : Ast F}
    {l : List (InOp × Ast F)} {x : List Char} (h : infixOp (skipWs rest) = some (o, x))
    (hx : skipWs x = s ++ r') (hs : TermOK A s a) (hr : Stop r') (hl : TailOK A r' l r) :
    TailOK A rest ((o, a) :: l) r := by
  obtain ⟨n1, h1⟩ := hs r' hr
  obtain ⟨n2, m, h2⟩ := hl
  refine ⟨max n1 n2, m + 1, ?_⟩
  rw [tail, h]
  dsimp only
  rw [hx, term_ok (Nat.le_max_left _ _) h1]
  simp only [Res.bind]
  rw [tail_ok (Nat.le_max_right _ _) (Nat.le_refl _) h2]
  simp only [Res.or]

theorem chain_of_term {A : Arith F} {s : List Char} {a : Ast F} (h : TermOK A s a) :
    ChainOK A s a [] := by
  intro rest l r hr hl
  obtain ⟨n1, h1⟩ := h rest hr
  obtain ⟨n2, m, h2⟩ := hl
  refine ⟨max n1 (max n2 m) + 1, ?_⟩
  rw [expr, term_ok (Nat.le_max_left _ _) h1]
  simp only [Res.bind]
  rw [tail_ok (by omega) (by omega) h2]
  simp

theorem chain_infix {A : Arith F} {s op t x : List Char} {a b : Ast F} {o : InOp}
    (hs : TermOK A s a) (ht : TermOK A t b)
    (hst : ∀ rest, Stop (op ++ (t ++ rest)))
    (ho : ∀ rest, infixOp (skipWs (op ++ (t ++ rest))) = some (o, x ++ (t ++ rest)))
    (hx : ∀ rest, skipWs (x ++ (t ++ rest)) = t ++ rest) :
    ChainOK A (s ++ op ++ t) a [(o, b)] := by
  intro rest l r hr hl
  have htl : TailOK A (op ++ (t ++ rest)) ((o, b) :: l) r :=
    tail_cons (ho rest) (hx rest) ht hr hl
  obtain ⟨n, hn⟩ := chain_of_term hs (op ++ (t ++ rest)) _ r (hst rest) htl
  refine ⟨n, ?_⟩
  rw [show s ++ op ++ t ++ rest = s ++ (op ++ (t ++ rest)) by simp]
  exact hn

theorem term_paren {A : Arith F} {s : List Char} {a : Ast F} {ops : List (InOp × Ast F)}
    (hg : GoodHead s) (h : ChainOK A s a ops) :
    TermOK A ('(' :: s ++ [')']) (infixAst a ops) := by
  intro rest hr
  obtain ⟨n, hn⟩ := h (')' :: rest) [] (')' :: rest)
    (stop_cons (by decide) (by decide) (by decide) (by decide)) (tail_stop (by rfl))
  refine ⟨n + 1, ?_⟩
  rw [show '(' :: s ++ [')'] ++ rest = '(' :: (s ++ (')' :: rest)) by simp]
  rw [List.append_nil] at hn
  rw [term, termStep, paren, lit_eq]
  simp only [Res.bind, skipWs_good hg, hn, skipWs_cons (show isWs ')' = false by decide), lit_eq,
    Res.or]

theorem term_neg {A : Arith F} {c : Char} {cs : List Char} {a : Ast F} (h : TermOK A (c :: cs) a)
    (hc : isDigit c = false) (hw : isWs c = false) : TermOK A ('-' :: c :: cs) (.neg a) := by
  intro rest hr
  obtain ⟨n, hn⟩ := h rest hr
  refine ⟨n + 1, ?_⟩
  have h0 : c ≠ '0' := by rintro rfl; exact absurd hc (by decide)
  have hnum : num ('-' :: (c :: (cs ++ rest))) = none := by
    simp [num, sign, intPart, h0, hc]
  rw [show '-' :: c :: cs ++ rest = '-' :: (c :: (cs ++ rest)) by simp]
  rw [show c :: cs ++ rest = c :: (cs ++ rest) by simp] at hn
  rw [term, termStep, paren, lit_ne (by decide)]
  simp only [Res.bind, Res.or, implMul, number, hnum, uminus, lit_eq, skipWs_cons hw, hn]

theorem ident_call {f cs : List Char} (h : IsName f) : ident (f ++ '(' :: cs) = some (f, '(' :: cs) :=
  ident_name h (by
    intro c hc
    simp only [List.head?_cons, Option.mem_def, Option.some.injEq] at hc
    subst hc
    decide)

theorem term_call1 {A : Arith F} {f s : List Char} {k : Fn} {a : Ast F}
    {ops : List (InOp × Ast F)} (hf : IsName f) (hk : fnOf f = some k) (hg : GoodHead s)
    (h : ChainOK A s a ops) : TermOK A (f ++ '(' :: s ++ [')']) (.call k [infixAst a ops]) := by
  intro rest hr
  obtain ⟨n, hn⟩ := h (')' :: rest) [] (')' :: rest)
    (stop_cons (by decide) (by decide) (by decide) (by decide)) (tail_stop (by rfl))
  refine ⟨n + 2, ?_⟩
  rw [List.append_nil] at hn
  have hn' := expr_ok (Nat.le_succ n) hn
  have hid := ident_call (cs := s ++ (')' :: rest)) hf
  have hlit : lit ')' (s ++ (')' :: rest)) = .fail := by
    obtain ⟨c, cs, rfl, _, hc⟩ := hg
    exact lit_ne hc
  rw [show f ++ '(' :: s ++ [')'] ++ rest = f ++ '(' :: (s ++ (')' :: rest)) by simp]
  obtain ⟨c, cs, rfl, hc, _⟩ := hf
  rw [term, List.cons_append, termStep_alpha hc, ← List.cons_append, fcall, hid]
  simp only [Res.bind, Res.or, skipWs_cons (show isWs '(' = false by decide), lit_eq, hlit,
    skipWs_good hg, hn', moreArgs, skipWs_cons (show isWs ')' = false by decide),
    lit_ne (show ')' ≠ ',' by decide), closeCall, mkCall, hk]

theorem term_call2 {A : Arith F} {f s t : List Char} {k : Fn} {a b : Ast F}
    {ops ops' : List (InOp × Ast F)} (hf : IsName f) (hk : fnOf f = some k) (hg : GoodHead s)
    (hg' : GoodHead t) (h : ChainOK A s a ops) (h' : ChainOK A t b ops') :
    TermOK A (f ++ '(' :: s ++ (',' :: ' ' :: t) ++ [')'])
      (.call k [infixAst a ops, infixAst b ops']) := by
  intro rest hr
  obtain ⟨n, hn⟩ := h (',' :: ' ' :: (t ++ (')' :: rest))) [] _
    (stop_cons (by decide) (by decide) (by decide) (by decide)) (tail_stop (by rfl))
  obtain ⟨m, hm⟩ := h' (')' :: rest) [] (')' :: rest)
    (stop_cons (by decide) (by decide) (by decide) (by decide)) (tail_stop (by rfl))
  rw [List.append_nil] at hn hm
  refine ⟨max n m + 3, ?_⟩
  have hn' := expr_ok (show n ≤ max n m + 2 by omega) hn
  have hm' := expr_ok (show m ≤ max n m + 2 by omega) hm
  have hid := ident_call (cs := s ++ (',' :: ' ' :: (t ++ (')' :: rest)))) hf
  have hlit : lit ')' (s ++ (',' :: ' ' :: (t ++ (')' :: rest)))) = .fail := by
    obtain ⟨c, cs, rfl, _, hc⟩ := hg
    exact lit_ne hc
  have hsk : skipWs (' ' :: (t ++ (')' :: rest))) = t ++ (')' :: rest) := by
    rw [skipWs, List.dropWhile_cons, if_pos (by decide)]
    exact skipWs_good hg'
  rw [show f ++ '(' :: s ++ (',' :: ' ' :: t) ++ [')'] ++ rest =
    f ++ '(' :: (s ++ (',' :: ' ' :: (t ++ (')' :: rest)))) by simp]
  obtain ⟨c, cs, rfl, hc, _⟩ := hf
  rw [term, List.cons_append, termStep_alpha hc, ← List.cons_append, fcall, hid]
  simp only [Res.bind, Res.or, skipWs_cons (show isWs '(' = false by decide), lit_eq, hlit,
    skipWs_good hg, hn', moreArgs, skipWs_cons (show isWs ')' = false by decide),
    skipWs_cons (show isWs ',' = false by decide), hsk, hm',
    lit_ne (show ')' ≠ ',' by decide), closeCall, mkCall, hk]

/-- Two readings of the same text are the same. -/
theorem chain_unique {A : Arith F} {s : List Char} {a b : Ast F} {ops ops' : List (InOp × Ast F)}
    (h : ChainOK A s a ops) (h' : ChainOK A s b ops') : infixAst a ops = infixAst b ops' := by
  obtain ⟨n, hn⟩ := h [] [] [] stop_nil (tail_stop rfl)
  obtain ⟨m, hm⟩ := h' [] [] [] stop_nil (tail_stop rfl)
  have h1 := expr_ok (Nat.le_max_left n m) hn
  have h2 := expr_ok (Nat.le_max_right n m) hm
  rw [h1] at h2
  simp only [List.append_nil, Res.ok.injEq, and_true] at h2
  exact h2

theorem parse_chain {A : Arith F} {s : List Char} {a : Ast F} {ops : List (InOp × Ast F)}
    (hg : GoodHead s) (h : ChainOK A s a ops) : parse A s = infixAst a ops := by
  obtain ⟨n, hn⟩ := h [] [] [] stop_nil (tail_stop rfl)
  rw [List.append_nil] at hn
  have hsk := skipWs_good (rest := []) hg
  rw [List.append_nil] at hsk hn
  refine parse_of_parameter (n := n) (r := []) ?_
  rw [parameter, hsk, hn]
  rfl

end Verif.Params
