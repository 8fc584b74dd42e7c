import Verif.Lemmas.ParamsPrint

/-! # Lemmas about the value of printed expressions -/

namespace Verif.Params

variable {F : Type}

/-! ### Values of syntax trees -/

/-- The tree is loaded as the number `v` of half-turns. -/
def Den (A : Arith F) (env : List Char → Loaded F) (a : Ast F) (v : F) : Prop :=
  ∀ hint, ∃ p, process A env hint a = some p ∧ p.typ ≠ .radians ∧ p.val = v

theorem withType_val {A : Arith F} {p : Loaded F} (h : p.typ ≠ .radians) {t : PType}
    (ht : t ≠ .radians) : (p.withType A t).val = p.val := by
  obtain ⟨pt, v⟩ := p
  cases pt <;> cases t <;> first | rfl | exact absurd rfl h | exact absurd rfl ht

theorem ptype_ne (o : InOp) : o.ptype ≠ .radians := by cases o <;> decide

theorem den_unique {A : Arith F} {env : List Char → Loaded F} {a : Ast F} {v w : F}
    (h : Den A env a v) (h' : Den A env a w) : v = w := by
  obtain ⟨p, hp, _, rfl⟩ := h none
  obtain ⟨q, hq, _, rfl⟩ := h' none
  rw [hp, Option.some.injEq] at hq
  rw [hq]

theorem den_const {A : Arith F} {env : List Char → Loaded F} {f : F} : Den A env (.const f) f := by
  intro hint
  simp only [process]
  split
  · exact ⟨_, rfl, by simp, rfl⟩
  · exact ⟨_, rfl, by simp, rfl⟩

theorem den_pi {A : Arith F} {env : List Char → Loaded F} : Den A env (.var ['p', 'i']) A.pi := by
  intro hint
  simp only [process, if_true]
  split
  · exact ⟨_, rfl, by simp, rfl⟩
  · exact ⟨_, rfl, by simp, rfl⟩

theorem den_var {A : Arith F} {env : List Char → Loaded F} {n : List Char} (hn : n ≠ ['p', 'i'])
    (h : (env n).typ ≠ .radians) : Den A env (.var n) (env n).val := by
  intro hint
  simp only [process, if_neg hn]
  exact ⟨_, rfl, h, rfl⟩

theorem den_neg {A : Arith F} {env : List Char → Loaded F} {a : Ast F} {v : F}
    (h : Den A env a v) : Den A env (.neg a) (A.neg v) := by
  intro hint
  obtain ⟨p, hp, ht, rfl⟩ := h (some .halfTurns)
  refine ⟨⟨.halfTurns, A.neg p.val⟩, ?_, by simp, rfl⟩
  simp only [process, hp, withType_val ht (show PType.halfTurns ≠ .radians by decide)]

theorem den_bin {A : Arith F} {env : List Char → Loaded F} {o : InOp} {a b : Ast F} {v w : F}
    (h : Den A env a v) (h' : Den A env b w) : Den A env (.bin o a b) (o.apply A v w) := by
  intro hint
  obtain ⟨p, hp, ht, rfl⟩ := h (some o.ptype)
  obtain ⟨q, hq, ht', rfl⟩ := h' (some o.ptype)
  refine ⟨⟨o.ptype, o.apply A p.val q.val⟩, ?_, ptype_ne o, rfl⟩
  simp only [process, hp, hq, withType_val ht (ptype_ne o), withType_val ht' (ptype_ne o)]

theorem den_call1 {A : Arith F} {env : List Char → Loaded F} {k : Fn} {a : Ast F} {v w : F}
    (h : Den A env a v) (hw : k.apply A [v] = some w) : Den A env (.call k [a]) w := by
  intro hint
  obtain ⟨p, hp, ht, rfl⟩ := h (some .halfTurns)
  refine ⟨⟨.halfTurns, w⟩, ?_, by simp, rfl⟩
  simp only [process, processArgs, hp,
    withType_val ht (show PType.halfTurns ≠ .radians by decide), hw, Option.map_some]

theorem den_call2 {A : Arith F} {env : List Char → Loaded F} {k : Fn} {a b : Ast F} {v v' w : F}
    (h : Den A env a v) (h' : Den A env b v') (hw : k.apply A [v, v'] = some w) :
    Den A env (.call k [a, b]) w := by
  intro hint
  obtain ⟨p, hp, ht, rfl⟩ := h (some .halfTurns)
  obtain ⟨q, hq, ht', rfl⟩ := h' (some .halfTurns)
  refine ⟨⟨.halfTurns, w⟩, ?_, by simp, rfl⟩
  simp only [process, processArgs, hp, hq,
    withType_val ht (show PType.halfTurns ≠ .radians by decide),
    withType_val ht' (show PType.halfTurns ≠ .radians by decide), hw, Option.map_some]

/-! ### Printed expressions -/

/-- What is known about the text of an expression. -/
structure Printed (A : Arith F) (env : List Char → Loaded F) (s : List Char) (v : F)
    (sum : Bool) : Prop where
  head : GoodHead s
  reads : (∃ a, TermOK A s a ∧ Den A env a v ∧ sum = false) ∨
    ∃ a o b x y, ChainOK A s a [(o, b)] ∧ Den A env a x ∧ Den A env b y ∧ v = o.apply A x y ∧
      (sum = true ↔ o.prec = 1)

theorem Printed.chain {A : Arith F} {env : List Char → Loaded F} {s : List Char} {v : F}
    {sum : Bool} (h : Printed A env s v sum) :
    ∃ a ops, ChainOK A s a ops ∧ Den A env (infixAst a ops) v := by
  rcases h.reads with ⟨a, ha, hv, _⟩ | ⟨a, o, b, x, y, hc, hx, hy, rfl, _⟩
  · exact ⟨a, [], chain_of_term ha, hv⟩
  · refine ⟨a, [(o, b)], hc, ?_⟩
    have : infixAst a [(o, b)] = .bin o a b := by cases o <;> rfl
    rw [this]
    exact den_bin hx hy

theorem Printed.paren {A : Arith F} {env : List Char → Loaded F} {s : List Char} {v : F}
    {sum : Bool} (h : Printed A env s v sum) :
    ∃ a, TermOK A ('(' :: s ++ [')']) a ∧ Den A env a v := by
  obtain ⟨a, ops, hc, hv⟩ := h.chain
  exact ⟨_, term_paren h.head hc, hv⟩

theorem Printed.value {A : Arith F} {env : List Char → Loaded F} {s : List Char} {v : F}
    {sum : Bool} (h : Printed A env s v sum) {a : Ast F} {w : F} (ha : TermOK A s a)
    (hw : Den A env a w) : v = w := by
  obtain ⟨b, ops, hc, hv⟩ := h.chain
  rw [chain_unique hc (chain_of_term ha)] at hv
  exact den_unique hv hw

theorem Printed.parse {A : Arith F} {env : List Char → Loaded F} {s : List Char} {v : F}
    {sum : Bool} (h : Printed A env s v sum) : Den A env (parse A s) v := by
  obtain ⟨a, ops, hc, hv⟩ := h.chain
  rw [parse_chain h.head hc]
  exact hv

theorem goodHead_alpha {s t : List Char} (h : IsName s) : GoodHead (s ++ t) := by
  obtain ⟨c, cs, rfl, hc, _⟩ := h
  refine ⟨c, cs ++ t, rfl, ?_, alpha_ne hc (by decide)⟩
  by_contra hw
  simp only [isWs, Bool.not_eq_false, Bool.or_eq_true, beq_iff_eq] at hw
  rcases hw with rfl | rfl <;> exact absurd hc (by decide)

theorem goodHead_numeral {s : List Char} (h : IsNumeral s) : GoodHead s := by
  obtain ⟨c, cs, rfl, hc⟩ := numeral_head h
  refine ⟨c, cs, rfl, ?_, ?_⟩
  · by_contra hw
    simp only [isWs, Bool.not_eq_false, Bool.or_eq_true, beq_iff_eq] at hw
    rcases hw with rfl | rfl <;> rcases hc with hc | hc <;> exact absurd hc (by decide)
  · rintro rfl
    rcases hc with hc | hc <;> exact absurd hc (by decide)

theorem isName_pi : IsName ['p', 'i'] := ⟨'p', ['i'], rfl, by decide, by simp; decide⟩

theorem isNumeral_digit {d : Char} (h0 : d ≠ '0') (h : isDigit d = true) : IsNumeral [d] :=
  ⟨[], [d], [], [], rfl, Or.inl rfl, Or.inr ⟨d, [], rfl, h0, h, by simp⟩, Or.inl rfl, Or.inl rfl⟩

theorem isNumeral_neg {d : Char} (h0 : d ≠ '0') (h : isDigit d = true) : IsNumeral ['-', d] :=
  ⟨['-'], [d], [], [], rfl, Or.inr rfl, Or.inr ⟨d, [], rfl, h0, h, by simp⟩, Or.inl rfl, Or.inl rfl⟩

/-- A term divided by a one-digit number. -/
theorem chain_divDigit {A : Arith F} {s : List Char} {a : Ast F} {d : Char} (hs : TermOK A s a)
    (h0 : d ≠ '0') (h : isDigit d = true) :
    ChainOK A (s ++ ['/'] ++ [d]) a [(.div, .const (A.read [d]))] := by
  refine chain_infix (x := []) hs (term_numeral (isNumeral_digit h0 h)) ?_ ?_ ?_
  · intro rest
    exact stop_cons (by decide) (by decide) (by decide) (by decide)
  · intro rest
    rfl
  · intro rest
    refine skipWs_cons ?_
    by_contra hw
    simp only [isWs, Bool.not_eq_false, Bool.or_eq_true, beq_iff_eq] at hw
    rcases hw with rfl | rfl <;> exact absurd h (by decide)

theorem printed_piName {A : Arith F} {env : List Char → Loaded F} (n : PiName) :
    Printed A env n.text (n.val A) false := by
  have hp : TermOK A ['p', 'i'] (.var ['p', 'i']) := term_name isName_pi
  have hm : TermOK A ['-', 'p', 'i'] (.neg (.var ['p', 'i'])) :=
    term_neg hp (by decide) (by decide)
  have h3 : TermOK A ['3', 'p', 'i'] (.bin .mul (.const (A.read ['3'])) (.var ['p', 'i'])) :=
    term_implMul (s := ['3']) (isNumeral_digit (by decide) (by decide)) isName_pi
      (by simp)
  have hm3 : TermOK A ['-', '3', 'p', 'i']
      (.bin .mul (.const (A.read ['-', '3'])) (.var ['p', 'i'])) :=
    term_implMul (s := ['-', '3']) (isNumeral_neg (by decide) (by decide)) isName_pi
      (by simp)
  have key : ∀ (s : List Char) (a : Ast F) (x : F) (d : Char), TermOK A s a → Den A env a x →
      GoodHead s → d ≠ '0' → isDigit d = true →
      Printed A env (s ++ ['/'] ++ [d]) (A.div x (A.read [d])) false := by
    intro s a x d hs hx hg h0 hd
    refine ⟨?_, Or.inr ⟨a, .div, _, x, _, chain_divDigit hs h0 hd, hx, den_const, rfl, ?_⟩⟩
    · obtain ⟨c, cs, rfl, h1, h2⟩ := hg
      exact ⟨c, cs ++ ['/'] ++ [d], rfl, h1, h2⟩
    · simp [InOp.prec]
  cases n with
  | pi => exact ⟨⟨'p', ['i'], rfl, by decide, by decide⟩, Or.inl ⟨_, hp, den_pi, rfl⟩⟩
  | pi2 =>
    exact key ['p', 'i'] _ _ '2' hp den_pi ⟨'p', ['i'], rfl, by decide, by decide⟩
      (by decide) (by decide)
  | mpi2 =>
    exact key ['-', 'p', 'i'] _ _ '2' hm (den_neg den_pi)
      ⟨'-', ['p', 'i'], rfl, by decide, by decide⟩ (by decide) (by decide)
  | pi4 =>
    exact key ['p', 'i'] _ _ '4' hp den_pi ⟨'p', ['i'], rfl, by decide, by decide⟩
      (by decide) (by decide)
  | pi34 =>
    exact key ['3', 'p', 'i'] _ _ '4' h3 (den_bin den_const den_pi)
      ⟨'3', ['p', 'i'], rfl, by decide, by decide⟩ (by decide) (by decide)
  | mpi4 =>
    exact key ['-', 'p', 'i'] _ _ '4' hm (den_neg den_pi)
      ⟨'-', ['p', 'i'], rfl, by decide, by decide⟩ (by decide) (by decide)
  | mpi34 =>
    exact key ['-', '3', 'p', 'i'] _ _ '4' hm3 (den_bin den_const den_pi)
      ⟨'-', ['3', 'p', 'i'], rfl, by decide, by decide⟩ (by decide) (by decide)

theorem printed_const {A : Arith F} (L : Laws A) {env : List Char → Loaded F} (f : F) :
    Printed A env (printConst A f) (snapVal A f) false := by
  unfold printConst snapVal
  cases snap A f with
  | some n => exact printed_piName n
  | none =>
    have h := L.numeral f
    refine ⟨goodHead_numeral h, Or.inl ⟨_, term_numeral h, ?_, rfl⟩⟩
    have hd : Den A env (.const (A.read (A.fmt f))) (A.read (A.fmt f)) := den_const
    rwa [L.read_fmt] at hd ⊢

theorem printed_infix {A : Arith F} {env : List Char → Loaded F} {s t op : List Char} {v w : F}
    {o : InOp} {b1 b2 : Bool} (hs : Printed A env s v b1) (ht : Printed A env t w b2)
    (ho : ∀ rest, infixOp (op ++ ' ' :: rest) = some (o, ' ' :: rest))
    (hop : ∃ c cs, op = c :: cs ∧ isAlpha c = false ∧ isWs c = false ∧ c ≠ '(') :
    Printed A env (printInfix op s t) (o.apply A v w) (o.prec == 1) := by
  obtain ⟨a, ha, hv⟩ := hs.paren
  obtain ⟨b, hb, hw⟩ := ht.paren
  refine ⟨⟨'(', _, rfl, by decide, by decide⟩, Or.inr ⟨a, o, b, v, w, ?_, hv, hw, rfl, by simp⟩⟩
  have heq : printInfix op s t =
      ('(' :: s ++ [')']) ++ (' ' :: op ++ [' ']) ++ ('(' :: t ++ [')']) := by
    simp [printInfix]
  rw [heq]
  obtain ⟨c, cs, rfl, h1, h2, h3⟩ := hop
  refine chain_infix (x := [' ']) ha hb ?_ ?_ ?_
  · intro rest
    exact stop_space h1 h2 h3
  · intro rest
    have : skipWs (' ' :: (c :: cs) ++ [' '] ++ ('(' :: t ++ [')'] ++ rest)) =
        (c :: cs) ++ ' ' :: ('(' :: t ++ [')'] ++ rest) := by
      have h5 := skipWs_cons (cs := cs ++ ' ' :: '(' :: (t ++ ')' :: rest)) h2
      rw [skipWs] at h5 ⊢
      simp only [List.cons_append, List.nil_append, List.append_assoc]
      rw [List.dropWhile_cons, if_pos (by decide)]
      exact h5
    rw [this, ho]
    rfl
  · intro rest
    rfl

theorem printed_call1 {A : Arith F} {env : List Char → Loaded F} {f s : List Char} {v w : F}
    {k : Fn} {b : Bool} (hs : Printed A env s v b) (hf : IsName f) (hk : fnOf f = some k)
    (hw : k.apply A [v] = some w) : Printed A env (f ++ '(' :: s ++ [')']) w false := by
  obtain ⟨a, ops, hc, hv⟩ := hs.chain
  refine ⟨?_, Or.inl ⟨_, term_call1 hf hk hs.head hc, den_call1 hv hw, rfl⟩⟩
  rw [List.append_assoc]
  exact goodHead_alpha hf

theorem printed_call2 {A : Arith F} {env : List Char → Loaded F} {f s t : List Char} {v v' w : F}
    {k : Fn} {b b' : Bool} (hs : Printed A env s v b) (ht : Printed A env t v' b') (hf : IsName f)
    (hk : fnOf f = some k) (hw : k.apply A [v, v'] = some w) :
    Printed A env (f ++ '(' :: s ++ (',' :: ' ' :: t) ++ [')']) w false := by
  obtain ⟨a, ops, hc, hv⟩ := hs.chain
  obtain ⟨a', ops', hc', hv'⟩ := ht.chain
  refine ⟨?_, Or.inl ⟨_, term_call2 hf hk hs.head ht.head hc hc', den_call2 hv hv' hw, rfl⟩⟩
  rw [List.append_assoc, List.append_assoc]
  exact goodHead_alpha hf

theorem printed_one {A : Arith F} {env : List Char → Loaded F} {s : List Char} {v : F} {b : Bool}
    (h : Printed A env s v b) (hs : s = ['1']) : v = A.read ['1'] := by
  subst hs
  exact h.value (term_numeral (isNumeral_digit (by decide) (by decide))) den_const

theorem isName_of (c : Char) (cs : List Char) (h : isAlpha c = true)
    (h' : cs.all isIdent = true) : IsName (c :: cs) :=
  ⟨c, cs, rfl, h, by simpa using h'⟩

/-- The text of an expression is read as its value, up to constants close to a multiple of π. -/
theorem printed {A : Arith F} (L : Laws A) {env : List Char → Loaded F}
    (henv : ∀ n, (env n).typ ≠ .radians) :
    ∀ e : Ex F, (∀ n ∈ e.vars, IsName n ∧ n ≠ ['p', 'i']) →
      Printed A env (e.print A) ((e.mapConst (snapVal A)).eval A fun n => (env n).val) (e.isSum A)
  | .const f, _ => printed_const L f
  | .var n, h => by
    obtain ⟨h1, h2⟩ := h n (by simp [Ex.vars])
    refine ⟨?_, Or.inl ⟨_, term_name h1, den_var h2 (henv n), rfl⟩⟩
    have := goodHead_alpha (t := []) h1
    rwa [List.append_nil] at this
  | .op1 o a, h => by
    have ih := printed L henv a h
    cases o with
    | neg =>
      obtain ⟨b, hb, hv⟩ := ih.paren
      exact ⟨⟨'-', _, rfl, by decide, by decide⟩,
        Or.inl ⟨_, term_neg hb (by decide) (by decide), den_neg hv, rfl⟩⟩
    | floor =>
      exact printed_call1 (f := ['f', 'l', 'o', 'o', 'r']) (k := .floor) ih
        (isName_of _ _ (by decide) (by decide)) (by decide) rfl
    | ceil =>
      exact printed_call1 (f := ['c', 'e', 'i', 'l']) (k := .ceil) ih
        (isName_of _ _ (by decide) (by decide)) (by decide) rfl
    | round =>
      exact printed_call1 (f := ['r', 'o', 'u', 'n', 'd']) (k := .round) ih
        (isName_of _ _ (by decide) (by decide)) (by decide) rfl
    | abs =>
      exact printed_call1 (f := ['a', 'b', 's']) (k := .abs) ih
        (isName_of _ _ (by decide) (by decide)) (by decide) rfl
  | .op2 o a b, h => by
    have iha := printed L henv a fun n hn => h n (List.mem_append_left _ hn)
    have ihb := printed L henv b fun n hn => h n (List.mem_append_right _ hn)
    cases o with
    | add => exact printed_infix iha ihb (fun rest => rfl) ⟨'+', [], rfl, by decide, by decide, by decide⟩
    | sub => exact printed_infix iha ihb (fun rest => rfl) ⟨'-', [], rfl, by decide, by decide, by decide⟩
    | pow =>
      exact printed_infix iha ihb (fun rest => rfl)
        ⟨'*', ['*'], rfl, by decide, by decide, by decide⟩
    | max =>
      exact printed_call2 (f := ['m', 'a', 'x']) (k := .max) iha ihb
        (isName_of _ _ (by decide) (by decide)) (by decide) rfl
    | min =>
      exact printed_call2 (f := ['m', 'i', 'n']) (k := .min) iha ihb
        (isName_of _ _ (by decide) (by decide)) (by decide) rfl
    | div =>
      simp only [Ex.print, print2, Ex.isSum, Ex.mapConst, Ex.eval, Op2.apply]
      by_cases hb : b.print A = ['1']
      · rw [if_pos hb, if_pos hb, printed_one ihb hb, L.div_one]
        exact iha
      · rw [if_neg hb, if_neg hb]
        exact printed_infix iha ihb (fun rest => rfl)
          ⟨'/', [], rfl, by decide, by decide, by decide⟩
    | mul =>
      simp only [Ex.print, print2, Ex.isSum, Ex.mapConst, Ex.eval, Op2.apply]
      by_cases ha : a.print A = ['1']
      · rw [if_pos ha, if_pos ha, printed_one iha ha, L.one_mul]
        exact ihb
      · rw [if_neg ha, if_neg ha]
        by_cases hb : b.print A = ['1']
        · rw [if_pos hb, if_pos hb, printed_one ihb hb, L.mul_one]
          exact iha
        · rw [if_neg hb, if_neg hb]
          exact printed_infix iha ihb (fun rest => rfl)
            ⟨'*', [], rfl, by decide, by decide, by decide⟩

/-! ### Brackets -/

/-- Opening minus closing brackets. -/
def depth : List Char → Int
  | [] => 0
  | c :: cs => (if c = '(' then 1 else if c = ')' then -1 else 0) + depth cs

theorem depth_append (s t : List Char) : depth (s ++ t) = depth s + depth t := by
  induction s with
  | nil => simp [depth]
  | cons c cs ih => simp only [List.cons_append, depth, ih]; omega

/-- Brackets are balanced. -/
def Bal (s : List Char) : Prop := depth s = 0 ∧ ∀ p q, s = p ++ q → 0 ≤ depth p

theorem bal_free {s : List Char} (h : ∀ c ∈ s, c ≠ '(' ∧ c ≠ ')') : Bal s := by
  have h0 : ∀ t : List Char, (∀ c ∈ t, c ≠ '(' ∧ c ≠ ')') → depth t = 0 := by
    intro t ht
    induction t with
    | nil => rfl
    | cons c cs ih =>
      have := ht c (by simp)
      rw [depth, if_neg this.1, if_neg this.2, ih fun d hd => ht d (by simp [hd])]
      rfl
  refine ⟨h0 s h, ?_⟩
  rintro p q rfl
  rw [h0 p fun c hc => h c (by simp [hc])]
  exact Int.le_refl _

theorem bal_append {s t : List Char} (hs : Bal s) (ht : Bal t) : Bal (s ++ t) := by
  refine ⟨by rw [depth_append, hs.1, ht.1]; rfl, ?_⟩
  intro p q hpq
  rcases List.append_eq_append_iff.mp hpq with ⟨x, rfl, rfl⟩ | ⟨x, rfl, rfl⟩
  · have := ht.2 x q rfl
    rw [depth_append, hs.1]
    omega
  · exact hs.2 p x rfl

theorem bal_paren {s : List Char} (hs : Bal s) : Bal ('(' :: s ++ [')']) := by
  refine ⟨?_, ?_⟩
  · rw [depth_append, depth, if_pos rfl, hs.1]
    decide
  · intro p q hpq
    cases p with
    | nil => exact Int.le_refl _
    | cons c p =>
      simp only [List.cons_append, List.cons.injEq] at hpq
      obtain ⟨rfl, hpq⟩ := hpq
      rw [depth, if_pos rfl]
      rcases List.append_eq_append_iff.mp hpq with ⟨x, rfl, hx⟩ | ⟨x, rfl, rfl⟩
      · rw [depth_append, hs.1]
        cases x with
        | nil => decide
        | cons d x =>
          simp only [List.cons_append, List.cons.injEq] at hx
          obtain ⟨rfl, hx⟩ := hx
          have : x = [] := by
            cases x with
            | nil => rfl
            | cons _ _ => exact absurd hx (by simp)
          subst this
          decide
      · have := hs.2 p x rfl
        omega

theorem bal_name {s : List Char} (h : IsName s) : Bal s := by
  obtain ⟨c, cs, rfl, h1, h2⟩ := h
  refine bal_free ?_
  intro d hd
  have hi : isIdent d = true := by
    rcases List.mem_cons.mp hd with rfl | hd
    · simp [isIdent, h1]
    · exact h2 d hd
  constructor <;> rintro rfl <;> exact absurd hi (by decide)

theorem bal_numeral {s : List Char} (h : IsNumeral s) : Bal s := by
  obtain ⟨sg, ip, fp, ep, rfl, hs, hi, hf, he⟩ := h
  have hdig : ∀ d : Char, isDigit d = true → d ≠ '(' ∧ d ≠ ')' := by
    intro d hd
    constructor <;> rintro rfl <;> exact absurd hd (by decide)
  refine bal_append (bal_append (bal_append ?_ ?_) ?_) ?_
  · rcases hs with rfl | rfl <;> exact bal_free (by decide)
  · rcases hi with rfl | ⟨d, ds, rfl, _, hd, hds⟩
    · exact bal_free (by decide)
    · refine bal_free fun c hc => ?_
      rcases List.mem_cons.mp hc with rfl | hc
      · exact hdig _ hd
      · exact hdig _ (hds c hc)
  · rcases hf with rfl | ⟨ds, rfl, hds⟩
    · exact bal_free (by decide)
    · refine bal_free fun c hc => ?_
      rcases List.mem_cons.mp hc with rfl | hc
      · exact ⟨by decide, by decide⟩
      · exact hdig _ (hds c hc)
  · rcases he with rfl | ⟨e, es, d, ds, rfl, hee, hes, hds⟩
    · exact bal_free (by decide)
    · refine bal_free fun c hc => ?_
      rcases List.mem_cons.mp hc with rfl | hc
      · rcases hee with rfl | rfl <;> decide
      · rcases List.mem_append.mp hc with hc | hc
        · rcases hes with rfl | rfl | rfl <;> simp at hc <;> subst hc <;> decide
        · exact hdig _ (hds c hc)

theorem bal_infix {op s t : List Char} (hs : Bal s) (ht : Bal t)
    (ho : ∀ c ∈ op, c ≠ '(' ∧ c ≠ ')') : Bal (printInfix op s t) := by
  have heq : printInfix op s t =
      ('(' :: s ++ [')']) ++ ((' ' :: op ++ [' ']) ++ ('(' :: t ++ [')'])) := by
    simp [printInfix]
  rw [heq]
  refine bal_append (bal_paren hs) (bal_append (bal_free ?_) (bal_paren ht))
  intro c hc
  simp only [List.cons_append, List.mem_cons, List.mem_append, List.not_mem_nil, or_false] at hc
  rcases hc with rfl | hc | rfl
  · exact ⟨by decide, by decide⟩
  · exact ho c hc
  · exact ⟨by decide, by decide⟩

theorem bal_print {A : Arith F} (L : Laws A) : ∀ e : Ex F, (∀ n ∈ e.vars, IsName n) →
    Bal (e.print A)
  | .const f, _ => by
    have hn : ∀ n : PiName, Bal n.text := by
      intro n
      cases n <;> exact bal_free (by decide)
    simp only [Ex.print, printConst]
    cases snap A f with
    | none => exact bal_numeral (L.numeral f)
    | some n => exact hn n
  | .var n, h => bal_name (h n (by simp [Ex.vars]))
  | .op1 o a, h => by
    have ih := bal_print L a h
    have hp := bal_paren ih
    cases o with
    | neg => exact bal_append (s := ['-']) (bal_free (by decide)) hp
    | floor => exact bal_append (s := ['f', 'l', 'o', 'o', 'r']) (bal_free (by decide)) hp
    | ceil => exact bal_append (s := ['c', 'e', 'i', 'l']) (bal_free (by decide)) hp
    | round => exact bal_append (s := ['r', 'o', 'u', 'n', 'd']) (bal_free (by decide)) hp
    | abs => exact bal_append (s := ['a', 'b', 's']) (bal_free (by decide)) hp
  | .op2 o a b, h => by
    have iha := bal_print L a fun n hn => h n (List.mem_append_left _ hn)
    have ihb := bal_print L b fun n hn => h n (List.mem_append_right _ hn)
    have hc : Bal ('(' :: (a.print A ++ (',' :: ' ' :: b.print A)) ++ [')']) :=
      bal_paren (bal_append iha (bal_append (s := [',', ' ']) (bal_free (by decide)) ihb))
    have hc' : ∀ f : List Char, Bal f →
        Bal (f ++ '(' :: a.print A ++ (',' :: ' ' :: b.print A) ++ [')']) := by
      intro f hf
      have := bal_append hf hc
      simpa using this
    cases o with
    | add => exact bal_infix iha ihb (by decide)
    | sub => exact bal_infix iha ihb (by decide)
    | pow => exact bal_infix iha ihb (by decide)
    | max => exact hc' ['m', 'a', 'x'] (bal_free (by decide))
    | min => exact hc' ['m', 'i', 'n'] (bal_free (by decide))
    | div =>
      simp only [Ex.print, print2]
      split
      · exact iha
      · exact bal_infix iha ihb (by decide)
    | mul =>
      simp only [Ex.print, print2]
      split
      · exact ihb
      · split
        · exact iha
        · exact bal_infix iha ihb (by decide)

/-- A balanced text does not end in an opening bracket and text without closing ones. -/
theorem bal_no_open {w t : List Char} (h : Bal (w ++ '(' :: t)) (ht : depth t = 0) : False := by
  have h1 := h.2 w ('(' :: t) rfl
  have h2 := h.1
  rw [depth_append, depth, if_pos rfl, ht] at h2
  omega

theorem infix_pi {op s t u : List Char} (ht : Bal t) (hne : t ≠ [])
    (hop : op = ['+'] ∨ op = ['-'] ∨ op = ['*'] ∨ op = ['/'] ∨ op = ['*', '*'])
    (h : printInfix op s t = '(' :: u ++ [')', ' ', '*', ' ', '(', 'p', 'i', ')']) :
    op = ['*'] ∧ s = u ∧ t = ['p', 'i'] := by
  have h1 : (s ++ (')' :: ' ' :: op ++ [' ', '('])) ++ t = (u ++ [')', ' ', '*', ' ', '(']) ++ ['p', 'i'] := by
    have h2 : ((s ++ (')' :: ' ' :: op ++ [' ', '('])) ++ t) ++ [')'] =
        ((u ++ [')', ' ', '*', ' ', '(']) ++ ['p', 'i']) ++ [')'] := by
      have : '(' :: (((s ++ (')' :: ' ' :: op ++ [' ', '('])) ++ t) ++ [')']) =
          '(' :: (((u ++ [')', ' ', '*', ' ', '(']) ++ ['p', 'i']) ++ [')']) := by
        simpa [printInfix] using h
      exact (List.cons.inj this).2
    exact List.append_cancel_right h2
  have key : t = ['p', 'i'] ∧ s ++ (')' :: ' ' :: op ++ [' ', '(']) = u ++ [')', ' ', '*', ' ', '('] := by
    rcases List.append_eq_append_iff.mp h1 with ⟨x, hx, rfl⟩ | ⟨x, hx, hpi⟩
    · rcases List.eq_nil_or_concat x with rfl | ⟨y, c, rfl⟩
      · exact ⟨rfl, by simpa using hx.symm⟩
      · exfalso
        have hc : c = '(' := by
          have hx' : u ++ [')', ' ', '*', ' '] ++ ['('] =
              s ++ (')' :: ' ' :: op ++ [' ', '(']) ++ y ++ [c] := by simpa using hx
          have := congrArg List.getLast? hx'
          rw [List.getLast?_concat, List.getLast?_concat] at this
          exact (Option.some.inj this).symm
        subst hc
        have ht' : Bal (y ++ '(' :: ['p', 'i']) := by simpa using ht
        exact bal_no_open ht' (by decide)
    · cases x with
      | nil => exact ⟨by simpa using hpi.symm, by simpa using hx⟩
      | cons c x =>
        exfalso
        simp only [List.cons_append, List.cons.injEq] at hpi
        obtain ⟨rfl, hpi⟩ := hpi
        cases x with
        | nil =>
          have hx' : s ++ (')' :: ' ' :: op ++ [' ']) ++ ['('] =
              u ++ [')', ' ', '*', ' ', '('] ++ ['p'] := by simpa using hx
          have := congrArg List.getLast? hx'
          rw [List.getLast?_concat, List.getLast?_concat] at this
          exact absurd (Option.some.inj this) (by decide)
        | cons d x =>
          simp only [List.cons_append, List.cons.injEq] at hpi
          obtain ⟨rfl, hpi⟩ := hpi
          cases x with
          | nil => exact hne (by simpa using hpi.symm)
          | cons _ _ => exact absurd hpi (by simp)
  obtain ⟨rfl, h3⟩ := key
  have h4 : s ++ (')' :: ' ' :: op) = u ++ [')', ' ', '*'] := by
    have : (s ++ (')' :: ' ' :: op)) ++ [' ', '('] = (u ++ [')', ' ', '*']) ++ [' ', '('] := by
      simpa using h3
    exact List.append_cancel_right this
  rcases hop with rfl | rfl | rfl | rfl | rfl
  · have := congrArg List.getLast? h4; simp at this
  · have := congrArg List.getLast? h4; simp at this
  · exact ⟨rfl, List.append_cancel_right h4, rfl⟩
  · have := congrArg List.getLast? h4; simp at this
  · have h5 : (s ++ [')', ' ', '*']) ++ ['*'] = (u ++ [')', ' ']) ++ ['*'] := by simpa using h4
    have h6 := congrArg List.getLast? (List.append_cancel_right h5)
    simp at h6

/-- A text of the form which is stripped comes from a product with π. -/
theorem strip_value {A : Arith F} (L : Laws A) {env : List Char → Loaded F}
    (henv : ∀ n, (env n).typ ≠ .radians) :
    ∀ e : Ex F, (∀ n ∈ e.vars, IsName n ∧ n ≠ ['p', 'i']) → ∀ u,
      e.print A = '(' :: u ++ [')', ' ', '*', ' ', '(', 'p', 'i', ')'] →
      ∃ w b, Printed A env u w b ∧
        (e.mapConst (snapVal A)).eval A (fun n => (env n).val) = A.mul w A.pi
  | .const f, _, u, hu => by
    exfalso
    simp only [Ex.print, printConst] at hu
    cases hs : snap A f with
    | none =>
      rw [hs] at hu
      obtain ⟨c, cs, hc, h'⟩ := numeral_head (L.numeral f)
      simp only [hc, List.cons_append, List.cons.injEq] at hu
      rw [hu.1] at h'
      rcases h' with h' | h' <;> exact absurd h' (by decide)
    | some n =>
      rw [hs] at hu
      cases n <;> simp [PiName.text] at hu
  | .var n, h, u, hu => by
    exfalso
    obtain ⟨⟨c, cs, rfl, h1, _⟩, _⟩ := h n (by simp [Ex.vars])
    simp only [Ex.print, List.cons_append, List.cons.injEq] at hu
    rw [hu.1] at h1
    exact absurd h1 (by decide)
  | .op1 o a, h, u, hu => by
    exfalso
    cases o <;> simp [Ex.print, print1] at hu
  | .op2 o a b, h, u, hu => by
    have ha := fun n hn => h n (List.mem_append_left _ hn)
    have hb := fun n hn => h n (List.mem_append_right _ hn)
    have pa := printed L henv a ha
    have pb := printed L henv b hb
    have bb := bal_print L b fun n hn => (hb n hn).1
    have nb : b.print A ≠ [] := by
      obtain ⟨c, cs, hc, _⟩ := pb.head
      rw [hc]
      simp
    cases o with
    | add => exact absurd (infix_pi bb nb (by simp) hu).1 (by decide)
    | sub => exact absurd (infix_pi bb nb (by simp) hu).1 (by decide)
    | pow => exact absurd (infix_pi bb nb (by simp) hu).1 (by decide)
    | max => simp [Ex.print, print2] at hu
    | min => simp [Ex.print, print2] at hu
    | div =>
      simp only [Ex.print, print2] at hu
      by_cases h1 : b.print A = ['1']
      · rw [if_pos h1] at hu
        simp only [Ex.mapConst, Ex.eval, Op2.apply]
        rw [printed_one pb h1, L.div_one]
        exact strip_value L henv a ha u hu
      · rw [if_neg h1] at hu
        exact absurd (infix_pi bb nb (by simp) hu).1 (by decide)
    | mul =>
      simp only [Ex.print, print2] at hu
      simp only [Ex.mapConst, Ex.eval, Op2.apply]
      by_cases h1 : a.print A = ['1']
      · rw [if_pos h1] at hu
        rw [printed_one pa h1, L.one_mul]
        exact strip_value L henv b hb u hu
      · rw [if_neg h1] at hu
        by_cases h2 : b.print A = ['1']
        · rw [if_pos h2] at hu
          rw [printed_one pb h2, L.mul_one]
          exact strip_value L henv a ha u hu
        · rw [if_neg h2] at hu
          obtain ⟨_, h3, h4⟩ := infix_pi bb nb (by simp) hu
          refine ⟨_, _, h3 ▸ pa, ?_⟩
          congr 1
          rw [h4] at pb
          exact pb.value (term_name isName_pi) den_pi

/-- A text of the form which is stripped is not a sum. -/
theorem strip_not_sum {A : Arith F} (L : Laws A) :
    ∀ e : Ex F, (∀ n ∈ e.vars, IsName n ∧ n ≠ ['p', 'i']) → ∀ u,
      e.print A = '(' :: u ++ [')', ' ', '*', ' ', '(', 'p', 'i', ')'] → ¬ e.isSum A = true
  | .const _, _, _, _ => by simp [Ex.isSum]
  | .var _, _, _, _ => by simp [Ex.isSum]
  | .op1 _ _, _, _, _ => by simp [Ex.isSum]
  | .op2 o a b, h, u, hu => by
    have ha := fun n hn => h n (List.mem_append_left _ hn)
    have hb := fun n hn => h n (List.mem_append_right _ hn)
    have pb := printed L (env := fun _ => ⟨.halfTurns, A.pi⟩) (by simp) b hb
    have bb := bal_print L b fun n hn => (hb n hn).1
    have nb : b.print A ≠ [] := by
      obtain ⟨c, cs, hc, _⟩ := pb.head
      rw [hc]
      simp
    cases o with
    | add => exact absurd (infix_pi bb nb (by simp) hu).1 (by decide)
    | sub => exact absurd (infix_pi bb nb (by simp) hu).1 (by decide)
    | pow => simp [Ex.isSum]
    | max => simp [Ex.isSum]
    | min => simp [Ex.isSum]
    | div =>
      simp only [Ex.print, print2] at hu
      simp only [Ex.isSum]
      by_cases h1 : b.print A = ['1']
      · rw [if_pos h1] at hu ⊢
        exact strip_not_sum L a ha u hu
      · rw [if_neg h1]
        simp
    | mul =>
      simp only [Ex.print, print2] at hu
      simp only [Ex.isSum]
      by_cases h1 : a.print A = ['1']
      · rw [if_pos h1] at hu ⊢
        exact strip_not_sum L b hb u hu
      · rw [if_neg h1] at hu ⊢
        by_cases h2 : b.print A = ['1']
        · rw [if_pos h2] at hu ⊢
          exact strip_not_sum L a ha u hu
        · rw [if_neg h2]
          simp

/-- Appending ` / (pi)` to a printed expression. -/
theorem divPi_value {A : Arith F} {env : List Char → Loaded F} {s : List Char} {v : F}
    {sum : Bool} (h : Printed A env s v sum) :
    (sum = false ∧ Den A env (parse A (s ++ [' ', '/', ' ', '(', 'p', 'i', ')'])) (A.div v A.pi)) ∨
    (sum = true ∧ ∃ o x y, (o = InOp.add ∨ o = InOp.sub) ∧ v = o.apply A x y ∧
      Den A env (parse A (s ++ [' ', '/', ' ', '(', 'p', 'i', ')']))
        (o.apply A x (A.div y A.pi))) := by
  have hpi : TermOK A ('(' :: ['p', 'i'] ++ [')']) (.var ['p', 'i']) :=
    term_paren ⟨'p', ['i'], rfl, by decide, by decide⟩ (chain_of_term (term_name isName_pi))
  have htl : TailOK A [' ', '/', ' ', '(', 'p', 'i', ')'] [(.div, .var ['p', 'i'])] [] :=
    tail_cons (x := [' ', '(', 'p', 'i', ')']) (s := ['(', 'p', 'i', ')']) (r' := [])
      (by decide) (by decide) hpi stop_nil (tail_stop rfl)
  have hst : Stop [' ', '/', ' ', '(', 'p', 'i', ')'] :=
    stop_space (by decide) (by decide) (by decide)
  have key : ∀ a ops, ChainOK A s a ops →
      parse A (s ++ [' ', '/', ' ', '(', 'p', 'i', ')']) =
        infixAst a (ops ++ [(.div, .var ['p', 'i'])]) := by
    intro a ops hc
    obtain ⟨n, hn⟩ := hc _ _ _ hst htl
    refine parse_of_parameter (n := n) (r := []) ?_
    rw [parameter, skipWs_good h.head, hn]
    rfl
  rcases h.reads with ⟨a, ha, hv, hsum⟩ | ⟨a, o, b, x, y, hc, hx, hy, rfl, hsum⟩
  · refine Or.inl ⟨hsum, ?_⟩
    rw [key a [] (chain_of_term ha)]
    exact den_bin (o := .div) hv den_pi
  · rw [key a _ hc]
    cases o with
    | add =>
      exact Or.inr ⟨hsum.mpr rfl, .add, x, y, Or.inl rfl, rfl,
        den_bin (o := .add) hx (den_bin (o := .div) hy den_pi)⟩
    | sub =>
      exact Or.inr ⟨hsum.mpr rfl, .sub, x, y, Or.inr rfl, rfl,
        den_bin (o := .sub) hx (den_bin (o := .div) hy den_pi)⟩
    | mul =>
      refine Or.inl ⟨?_, den_bin (o := .div) (den_bin (o := .mul) hx hy) den_pi⟩
      by_contra hs
      exact absurd (hsum.mp (by simpa using hs)) (by decide)
    | div =>
      refine Or.inl ⟨?_, den_bin (o := .div) (den_bin (o := .div) hx hy) den_pi⟩
      by_contra hs
      exact absurd (hsum.mp (by simpa using hs)) (by decide)
    | pow =>
      refine Or.inl ⟨?_, den_bin (o := .div) (den_bin (o := .pow) hx hy) den_pi⟩
      by_contra hs
      exact absurd (hsum.mp (by simpa using hs)) (by decide)

/-- The two outcomes of the conversion of radians. -/
theorem toHalfTurns_cases (s : List Char) :
    (∃ u, s = '(' :: u ++ [')', ' ', '*', ' ', '(', 'p', 'i', ')'] ∧ toHalfTurns s = u) ∨
      toHalfTurns s = s ++ [' ', '/', ' ', '(', 'p', 'i', ')'] := by
  unfold toHalfTurns stripSuffix
  by_cases h : [')', ' ', '*', ' ', '(', 'p', 'i', ')'] <:+ s
  · rw [if_pos h]
    obtain ⟨t, rfl⟩ := h
    have ht : (t ++ [')', ' ', '*', ' ', '(', 'p', 'i', ')']).take
        ((t ++ [')', ' ', '*', ' ', '(', 'p', 'i', ')']).length -
          [')', ' ', '*', ' ', '(', 'p', 'i', ')'].length) = t := by
      rw [List.length_append, Nat.add_sub_cancel, List.take_left']
      rfl
    rw [ht]
    dsimp only
    split
    · exact Or.inl ⟨_, rfl, rfl⟩
    · exact Or.inr rfl
  · rw [if_neg h]
    exact Or.inr rfl

end Verif.Params
