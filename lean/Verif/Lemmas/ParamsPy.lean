import Verif.Lemmas.ParamsEval

/-! # Lemmas about reading Python's expressions -/

namespace Verif.Params

variable {F : Type}

/-! ### The Pratt stage -/

theorem pratt_length : ∀ (n rbp : Nat) (l : Ast F) (ops : List (InOp × Ast F)),
    (pratt n rbp l ops).2.length ≤ ops.length
  | 0, _, _, _ => Nat.le_refl _
  | _ + 1, _, _, [] => Nat.le_refl _
  | n + 1, rbp, l, (o, a) :: ops => by
    rw [pratt]
    split
    · have h1 := pratt_length n o.prec a ops
      have h2 := pratt_length n rbp (.bin o l (pratt n o.prec a ops).1) (pratt n o.prec a ops).2
      simp only [List.length_cons]
      omega
    · exact Nat.le_refl _

theorem pratt_fuel : ∀ (n m rbp : Nat) (l : Ast F) (ops : List (InOp × Ast F)),
    ops.length ≤ n → ops.length ≤ m → pratt n rbp l ops = pratt m rbp l ops
  | 0, 0, _, _, _, _, _ => rfl
  | 0, m + 1, _, _, [], _, _ => rfl
  | n + 1, 0, _, _, [], _, _ => rfl
  | n + 1, m + 1, _, _, [], _, _ => rfl
  | 0, m, _, _, _ :: _, h, _ => absurd h (by simp)
  | n, 0, _, _, _ :: _, _, h => absurd h (by simp)
  | n + 1, m + 1, rbp, l, (o, a) :: ops, h, h' => by
    simp only [List.length_cons] at h h'
    rw [pratt, pratt]
    split
    · have h1 := pratt_length n o.prec a ops
      rw [pratt_fuel n m o.prec a ops (by omega) (by omega)] at h1 ⊢
      dsimp only
      rw [pratt_fuel n m rbp _ _ (by omega) (by omega)]
    · rfl

/-- `pratt` with enough fuel. -/
def prattAll (rbp : Nat) (l : Ast F) (ops : List (InOp × Ast F)) :
    Ast F × List (InOp × Ast F) := pratt ops.length rbp l ops

theorem prattAll_cons {rbp : Nat} {l a : Ast F} {o : InOp} {ops : List (InOp × Ast F)}
    (h : rbp < o.prec) : prattAll rbp l ((o, a) :: ops) =
      prattAll rbp (.bin o l (prattAll o.prec a ops).1) (prattAll o.prec a ops).2 := by
  unfold prattAll
  rw [List.length_cons, pratt, if_pos h]
  dsimp only
  exact pratt_fuel _ _ _ _ _ (pratt_length _ _ _ _) (Nat.le_refl _)

theorem prattAll_stop {rbp : Nat} {l : Ast F} {rest : List (InOp × Ast F)}
    (h : ∀ o ∈ rest.head?.map Prod.fst, o.prec ≤ rbp) : prattAll rbp l rest = (l, rest) := by
  cases rest with
  | nil => rfl
  | cons x rest =>
    obtain ⟨o, a⟩ := x
    unfold prattAll
    rw [List.length_cons, pratt, if_neg]
    have := h o (by simp)
    omega

/-- The chain `a`, `ops` is grouped to `t`, as long as no operator stronger than `k` follows. -/
def Groups (k : Nat) (a : Ast F) (ops : List (InOp × Ast F)) (t : Ast F) : Prop :=
  ∀ rbp rest, rbp < k → (∀ o ∈ rest.head?.map Prod.fst, o.prec ≤ k) →
    prattAll rbp a (ops ++ rest) = prattAll rbp t rest

theorem groups_bin {k k' : Nat} {a b t u : Ast F} {ops ops' : List (InOp × Ast F)} {o : InOp}
    (h : Groups k a ops t) (h' : Groups k' b ops' u) (hk : o.prec ≤ k) (hk' : o.prec < k') :
    Groups o.prec a (ops ++ (o, b) :: ops') (.bin o t u) := by
  intro rbp rest hr hrest
  rw [List.append_assoc, List.cons_append, h rbp _ (Nat.lt_of_lt_of_le hr hk) (by simpa using hk),
    prattAll_cons hr, h' o.prec rest hk' fun p hp => Nat.le_trans (hrest p hp) (Nat.le_of_lt hk'),
    prattAll_stop hrest]

theorem groups_infixAst {k : Nat} {a t : Ast F} {ops : List (InOp × Ast F)} (hk : 0 < k)
    (h : Groups k a ops t) : infixAst a ops = t := by
  have := h 0 [] hk (by simp)
  rw [List.append_nil] at this
  unfold infixAst
  show (prattAll 0 a ops).1 = t
  rw [this]
  rfl

/-! ### Chains of any length -/

/-- The text of a sequence of operators and terms. -/
def TailText (A : Arith F) (s : List Char) (ops : List (InOp × Ast F)) : Prop :=
  ∀ rest l r, Stop rest → TailOK A rest l r → Stop (s ++ rest) ∧ TailOK A (s ++ rest) (ops ++ l) r

/-- The text of a term and a sequence of operators and terms. -/
def Chn (A : Arith F) (s : List Char) (a : Ast F) (ops : List (InOp × Ast F)) : Prop :=
  ∃ s0 s1, s = s0 ++ s1 ∧ GoodHead s0 ∧ TermOK A s0 a ∧ TailText A s1 ops

theorem Chn.ok {A : Arith F} {s : List Char} {a : Ast F} {ops : List (InOp × Ast F)}
    (h : Chn A s a ops) : ChainOK A s a ops := by
  obtain ⟨s0, s1, rfl, _, h0, h1⟩ := h
  intro rest l r hr hl
  obtain ⟨h2, h3⟩ := h1 rest l r hr hl
  obtain ⟨n, hn⟩ := chain_of_term h0 _ _ _ h2 h3
  rw [List.append_assoc]
  exact ⟨n, hn⟩

theorem Chn.head {A : Arith F} {s : List Char} {a : Ast F} {ops : List (InOp × Ast F)}
    (h : Chn A s a ops) : GoodHead s := by
  obtain ⟨s0, s1, rfl, ⟨c, cs, rfl, h1, h2⟩, _⟩ := h
  exact ⟨c, cs ++ s1, rfl, h1, h2⟩

theorem chn_term {A : Arith F} {s : List Char} {a : Ast F} (hg : GoodHead s)
    (h : TermOK A s a) : Chn A s a [] :=
  ⟨s, [], by simp, hg, h, fun _ _ _ hr hl => ⟨hr, hl⟩⟩

theorem skipWs_blanks (n : Nat) (s : List Char) :
    skipWs (List.replicate n ' ' ++ s) = skipWs s := by
  induction n with
  | zero => rfl
  | succ n ih =>
    rw [List.replicate_succ, List.cons_append, skipWs, List.dropWhile_cons, if_pos (by decide)]
    exact ih

theorem op_head (o : InOp) : ∃ c cs, o.text = c :: cs ∧ isIdent c = false ∧ c ≠ '.' ∧
    isWs c = false ∧ c ≠ '(' := by
  cases o <;> exact ⟨_, _, rfl, by decide, by decide, by decide, by decide⟩

theorem infixOp_text (o : InOp) {s : List Char} (hs : ∀ c ∈ s.head?, c ≠ '*') :
    infixOp (o.text ++ s) = some (o, s) := by
  cases o with
  | mul =>
    cases s with
    | nil => rfl
    | cons c cs =>
      have := hs c (by simp)
      simp [InOp.text, infixOp, this]
  | _ => rfl

theorem stop_op (o : InOp) (n : Nat) (s : List Char) :
    Stop (List.replicate n ' ' ++ (o.text ++ s)) := by
  obtain ⟨c, cs, ho, h1, h2, h3, h4⟩ := op_head o
  rw [ho, List.cons_append]
  cases n with
  | zero => exact stop_cons h1 h2 h3 h4
  | succ n =>
    refine ⟨?_, ?_⟩
    · intro d hd
      rw [List.replicate_succ, List.cons_append, List.head?_cons, Option.mem_def,
        Option.some.injEq] at hd
      subst hd
      exact ⟨by decide, by decide⟩
    · rw [skipWs_blanks]
      exact (stop_cons h1 h2 h3 h4).2

theorem chn_bin {A : Arith F} {s t : List Char} {a b : Ast F} {ops ops' : List (InOp × Ast F)}
    {o : InOp} {n m : Nat} (h : Chn A s a ops) (h' : Chn A t b ops')
    (ht : ∀ c ∈ t.head?, c ≠ '*') :
    Chn A (s ++ (List.replicate n ' ' ++ o.text ++ List.replicate m ' ') ++ t) a
      (ops ++ (o, b) :: ops') := by
  have hg := h'.head
  obtain ⟨s0, s1, rfl, hg0, h0, h1⟩ := h
  obtain ⟨t0, t1, rfl, hg0', h0', h1'⟩ := h'
  refine ⟨s0, s1 ++ (List.replicate n ' ' ++ o.text ++ List.replicate m ' ' ++ (t0 ++ t1)),
    by simp only [List.append_assoc], hg0, h0, ?_⟩
  intro rest l r hr hl
  obtain ⟨h2, h3⟩ := h1' rest l r hr hl
  have heq : List.replicate n ' ' ++ o.text ++ List.replicate m ' ' ++ (t0 ++ t1) ++ rest =
      List.replicate n ' ' ++ (o.text ++ (List.replicate m ' ' ++ (t0 ++ (t1 ++ rest)))) := by
    simp only [List.append_assoc]
  have hst := stop_op o n (List.replicate m ' ' ++ (t0 ++ (t1 ++ rest)))
  have hnext : ∀ c ∈ (List.replicate m ' ' ++ (t0 ++ (t1 ++ rest))).head?, c ≠ '*' := by
    cases m with
    | zero =>
      obtain ⟨c, cs, rfl, _⟩ := hg0'
      intro d hd
      exact ht d (by simpa using hd)
    | succ m =>
      intro d hd
      rw [List.replicate_succ, List.cons_append, List.head?_cons, Option.mem_def,
        Option.some.injEq] at hd
      subst hd
      decide
  have htl : TailOK A (List.replicate n ' ' ++
      (o.text ++ (List.replicate m ' ' ++ (t0 ++ (t1 ++ rest))))) ((o, b) :: (ops' ++ l)) r := by
    refine tail_cons (x := List.replicate m ' ' ++ (t0 ++ (t1 ++ rest))) ?_ ?_ h0' h2 h3
    · rw [skipWs_blanks]
      obtain ⟨c, cs, ho, _, _, h5, _⟩ := op_head o
      rw [show skipWs (o.text ++ (List.replicate m ' ' ++ (t0 ++ (t1 ++ rest)))) =
        o.text ++ (List.replicate m ' ' ++ (t0 ++ (t1 ++ rest))) by
          rw [ho, List.cons_append]; exact skipWs_cons h5]
      exact infixOp_text o hnext
    · rw [skipWs_blanks]
      exact skipWs_good hg0'
  have := h1 _ _ _ hst htl
  rw [List.append_assoc s1, heq]
  simpa only [List.append_assoc, List.cons_append] using this

/-! ### Python's expressions -/

theorem fn_name (f : Fn) : IsName f.text ∧ fnOf f.text = some f := by
  cases f <;> exact ⟨isName_of _ _ (by decide) (by decide), by decide⟩

/-- The strength with which the chain of an expression is held together. -/
def strength : Py → Nat
  | .bin o _ _ _ _ => o.prec
  | _ => 4

theorem strength_pos (t : Py) : 0 < strength t := by
  cases t with
  | bin o _ _ _ _ => cases o <;> simp [strength, InOp.prec]
  | _ => exact (by decide : 0 < 4)

/-- What is known about the text of an expression. -/
structure PyOK (A : Arith F) (env : List Char → Loaded F) (t : Py) : Prop where
  reads : ∃ a ops u v, Chn A t.text a ops ∧ Groups (strength t) a ops u ∧ Den A env u v ∧
    t.eval A (fun n => (env n).val) = some v ∧ ((∀ o x y b c, t ≠ .bin o x y b c) → TermOK A t.text u)
  head : ∀ c ∈ t.text.head?, c ≠ '*' ∧
    (isDigit c = true → (∀ o x y b c, t ≠ .bin o x y b c) → ∃ s, t = .num s)

theorem PyOK.den {A : Arith F} {env : List Char → Loaded F} {t : Py} (h : PyOK A env t) :
    ∃ a ops v, ChainOK A t.text a ops ∧ GoodHead t.text ∧ Den A env (infixAst a ops) v ∧
      t.eval A (fun n => (env n).val) = some v := by
  obtain ⟨a, ops, u, v, hc, hg, hd, he, _⟩ := h.reads
  refine ⟨a, ops, v, hc.ok, hc.head, ?_, he⟩
  rw [groups_infixAst (strength_pos t) hg]
  exact hd

theorem groups_term {a : Ast F} {k : Nat} : Groups k a [] a := fun _ _ _ _ => rfl

theorem pyOK_term {A : Arith F} {env : List Char → Loaded F} {t : Py} {a : Ast F} {v : F}
    (hg : GoodHead t.text) (h : TermOK A t.text a)
    (hd : Den A env a v) (he : t.eval A (fun n => (env n).val) = some v)
    (hh : ∀ c ∈ t.text.head?, c ≠ '*' ∧ (isDigit c = true → ∃ s, t = .num s)) : PyOK A env t :=
  ⟨⟨a, [], a, v, chn_term hg h, groups_term, hd, he, fun _ => h⟩,
    fun c hc => ⟨(hh c hc).1, fun hd _ => (hh c hc).2 hd⟩⟩

theorem head_alpha {s t : List Char} (h : IsName s) {P : Prop} :
    ∀ c ∈ (s ++ t).head?, c ≠ '*' ∧ (isDigit c = true → P) := by
  obtain ⟨c, cs, rfl, hc, _⟩ := h
  intro d hd
  simp only [List.cons_append, List.head?_cons, Option.mem_def, Option.some.injEq] at hd
  subst hd
  refine ⟨alpha_ne hc (by decide), fun hd => ?_⟩
  have := num_alpha (cs := []) hc
  have h0 : c ≠ '-' := alpha_ne hc (by decide)
  have h1 : c ≠ '0' := alpha_ne hc (by decide)
  simp [num, sign, intPart, h0, h1, hd] at this

theorem pyOK {A : Arith F} (hneg : ∀ d, A.read ('-' :: d) = A.neg (A.read d))
    {env : List Char → Loaded F} (henv : ∀ n, (env n).typ ≠ .radians) :
    ∀ t : Py, t.Grammar → t.Tame → PyOK A env t
  | .num s, hg, _ => by
    refine pyOK_term (goodHead_numeral hg.1) (term_numeral hg.1) den_const rfl ?_
    intro c hc
    refine ⟨?_, fun _ => ⟨s, rfl⟩⟩
    rintro rfl
    obtain ⟨d, ds, hs, hd⟩ := numeral_head hg.1
    have : d = '*' := by
      have hc' : '*' ∈ s.head? := hc
      rw [hs] at hc'
      simpa using hc'
    subst this
    rcases hd with hd | hd <;> exact absurd hd (by decide)
  | .name s, hg, _ => by
    have hg' : GoodHead s := by simpa using goodHead_alpha (t := []) hg
    have hh := head_alpha (t := []) (P := ∃ s', Py.name s = .num s') hg
    rw [List.append_nil] at hh
    by_cases hp : s = ['p', 'i']
    · subst hp
      exact pyOK_term hg' (term_name hg) den_pi rfl hh
    · exact pyOK_term (t := .name s) hg' (term_name hg) (den_var hp (henv s))
        (by simp [Py.eval, Py.text, hp]) hh
  | .par a, hg, ht => by
    obtain ⟨b, ops, v, hc, hgh, hd, he⟩ := (pyOK hneg henv a hg ht).den
    refine pyOK_term ⟨'(', _, rfl, by decide, by decide⟩ (term_paren hgh hc) hd he ?_
    intro c hc
    simp only [Py.text, List.cons_append, List.head?_cons, Option.mem_def, Option.some.injEq] at hc
    subst hc
    exact ⟨by decide, fun h => absurd h (by decide)⟩
  | .neg a, hg, ht => by
    have ih := pyOK hneg henv a hg.2 ht.2
    obtain ⟨b, ops, u, v, hc, hgr, hd, he, hops⟩ := ih.reads
    have hb : ∀ o x y b c, a ≠ .bin o x y b c := by
      rintro o x y b c rfl
      have h1 := hg.1
      have h2 := ht.1
      cases o <;> simp [Py.level] at h1 h2
    have hterm := hops hb
    have hhead : ∀ c ∈ (Py.neg a).text.head?, c ≠ '*' ∧
        (isDigit c = true → ∃ s, Py.neg a = .num s) := by
      intro c hc
      simp only [Py.text, List.head?_cons, Option.mem_def, Option.some.injEq] at hc
      subst hc
      exact ⟨by decide, fun h => absurd h (by decide)⟩
    have hgood : GoodHead (Py.neg a).text := ⟨'-', _, rfl, by decide, by decide⟩
    obtain ⟨c, cs, htext, hw, _⟩ := hc.head
    by_cases hdig : isDigit c = true
    · obtain ⟨s, rfl⟩ := (ih.head c (by rw [htext]; simp)).2 hdig hb
      obtain ⟨⟨sg, ip, fp, ep, hs, hsg, hi, hf, hx⟩, hm⟩ := hg.2
      have hsg' : sg = [] := by
        rcases hsg with rfl | rfl
        · rfl
        · exact absurd rfl (hm '-' (by rw [hs]; simp))
      subst hsg'
      have hnum : IsNumeral ('-' :: s) :=
        ⟨['-'], ip, fp, ep, by rw [hs]; simp, Or.inr rfl, hi, hf, hx⟩
      refine pyOK_term hgood (term_numeral hnum) den_const ?_ hhead
      simp only [Py.eval, Py.text, Option.map_some, hneg]
    · have ht2 : TermOK A ('-' :: a.text) (.neg u) := by
        rw [htext] at hterm ⊢
        exact term_neg hterm (by simpa using hdig) hw
      exact pyOK_term hgood ht2 (den_neg hd) (by simp [Py.eval, he]) hhead
  | .bin o n m a b, hg, ht => by
    have iha := pyOK hneg henv a hg.2.1 ht.2.1
    have ihb := pyOK hneg henv b hg.2.2 ht.2.2
    obtain ⟨a1, ops1, u1, v1, hc1, hg1, hd1, he1, _⟩ := iha.reads
    obtain ⟨a2, ops2, u2, v2, hc2, hg2, hd2, he2, _⟩ := ihb.reads
    have hs1 : o.prec ≤ strength a := by
      have h1 := hg.1
      cases o <;> cases a with
      | bin o' _ _ _ _ => cases o' <;> simp [Py.level, strength, InOp.prec] at h1 ⊢
      | _ => simp [strength, InOp.prec]
    have hs2 : o.prec < strength b := by
      have h1 := hg.1
      have h2 := ht.1
      cases o <;> cases b with
      | bin o' _ _ _ _ => cases o' <;> simp [Py.level, strength, InOp.prec] at h1 h2 ⊢
      | _ => simp [strength, InOp.prec]
    refine ⟨⟨a1, ops1 ++ (o, a2) :: ops2, .bin o u1 u2, o.apply A v1 v2,
      chn_bin hc1 hc2 fun c hc => (ihb.head c hc).1, groups_bin hg1 hg2 hs1 hs2,
      den_bin hd1 hd2, by simp [Py.eval, he1, he2], fun h => absurd rfl (h o n m a b)⟩, ?_⟩
    obtain ⟨c, cs, htext, _, _⟩ := hc1.head
    intro d hd
    have hda : d ∈ a.text.head? := by
      simp only [Py.text, htext, List.cons_append, List.head?_cons] at hd ⊢
      exact hd
    exact ⟨(iha.head d hda).1, fun _ h => absurd rfl (h o n m a b)⟩
  | .call1 f a, hg, ht => by
    obtain ⟨b, ops, v, hc, hgh, hd, he⟩ := (pyOK hneg henv a hg ht.2).den
    obtain ⟨hf, hk⟩ := fn_name f
    have hw : ∃ w, f.apply A [v] = some w := by
      have := ht.1
      cases f <;> first | exact ⟨_, rfl⟩ | simp at this
    obtain ⟨w, hw⟩ := hw
    refine pyOK_term ?_ (term_call1 hf hk hgh hc) (den_call1 hd hw) (by simp [Py.eval, he, hw]) ?_
    · rw [Py.text, List.append_assoc]
      exact goodHead_alpha hf
    · rw [Py.text, List.append_assoc]
      exact head_alpha hf
  | .call2 f a b, hg, ht => by
    obtain ⟨a1, ops, v, hc, hgh, hd, he⟩ := (pyOK hneg henv a hg.1 ht.2.1).den
    obtain ⟨a2, ops', v', hc', hgh', hd', he'⟩ := (pyOK hneg henv b hg.2 ht.2.2).den
    obtain ⟨hf, hk⟩ := fn_name f
    have hw : ∃ w, f.apply A [v, v'] = some w := by
      rcases ht.1 with rfl | rfl <;> exact ⟨_, rfl⟩
    obtain ⟨w, hw⟩ := hw
    refine pyOK_term ?_ (term_call2 hf hk hgh hgh' hc hc') (den_call2 hd hd' hw)
      (by simp [Py.eval, he, he', hw]) ?_
    · rw [Py.text, List.append_assoc, List.append_assoc]
      exact goodHead_alpha hf
    · rw [Py.text, List.append_assoc, List.append_assoc]
      exact head_alpha hf

end Verif.Params
