import Verif.Lemmas.ParamsPy

/-!
# Parameter expressions: C34, C35, C36, C37
-/

namespace Verif.Params

variable {F : Type}

/-! ### Two arithmetics for examples -/

/-- Integers, with `pi = 3`; only equal numbers are `near`. -/
def intArith : Arith Int where
  add := (· + ·)
  sub := (· - ·)
  mul := (· * ·)
  div := (· / ·)
  pow a b := a ^ b.toNat
  max := fun a b => if a ≤ b then b else a
  min := fun a b => if a ≤ b then a else b
  neg a := -a
  abs a := a.natAbs
  floor a := a
  ceil a := a
  round a := a
  pi := 3
  fmt a := match a with
    | .ofNat n => Nat.toDigits 10 n
    | .negSucc n => '-' :: Nat.toDigits 10 (n + 1)
  read s := match s with
    | '-' :: s => -(Nat.ofDigitChars 10 s 0 : Int)
    | s => Nat.ofDigitChars 10 s 0
  near a b := a == b

/-- Rationals, with the exact value of the 64 bit float `PI`, and numbers closer than `1e-10`
identified. -/
def ratArith : Arith Rat where
  add := (· + ·)
  sub := (· - ·)
  mul := (· * ·)
  div := (· / ·)
  pow a b := a ^ b.num.toNat
  max := fun a b => if a ≤ b then b else a
  min := fun a b => if a ≤ b then a else b
  neg a := -a
  abs a := if a < 0 then -a else a
  floor a := a.floor
  ceil a := a.ceil
  round a := (a + 1 / 2).floor
  pi := 884279719003555 / 281474976710656
  fmt a := intArith.fmt a.num
  read s := (intArith.read s : Int)
  near a b := decide (a - b < 1 / 10 ^ 10 ∧ b - a < 1 / 10 ^ 10)

theorem isDigit_of_char {c : Char} (h : c.isDigit = true) : isDigit c = true := by
  simp only [Char.isDigit, ge_iff_le, Bool.and_eq_true, decide_eq_true_eq] at h
  simp only [isDigit, decide_eq_true_eq]
  exact h

theorem toDigits_head : ∀ n : Nat, 0 < n → ∃ d ds, Nat.toDigits 10 n = d :: ds ∧ d ≠ '0' := by
  intro n
  induction n using Nat.strongRecOn with
  | _ n ih =>
    intro hn
    by_cases h : n < 10
    · refine ⟨n.digitChar, [], Nat.toDigits_of_lt_base h, ?_⟩
      match n, hn, h with
      | 1, _, _ => decide
      | 2, _, _ => decide
      | 3, _, _ => decide
      | 4, _, _ => decide
      | 5, _, _ => decide
      | 6, _, _ => decide
      | 7, _, _ => decide
      | 8, _, _ => decide
      | 9, _, _ => decide
    · obtain ⟨d, ds, h1, h2⟩ := ih (n / 10) (by omega) (by omega)
      refine ⟨d, ds ++ [(n % 10).digitChar], ?_, h2⟩
      rw [Nat.toDigits_of_base_le (by decide) (by omega), h1]
      rfl

theorem toDigits_numeral (n : Nat) : IsNumeral (Nat.toDigits 10 n) ∧
    ∀ c ∈ (Nat.toDigits 10 n).head?, c ≠ '-' := by
  have hd : ∀ c ∈ Nat.toDigits 10 n, isDigit c = true := fun c hc =>
    isDigit_of_char (Nat.isDigit_of_mem_toDigits (by decide) (by decide) hc)
  refine ⟨⟨[], Nat.toDigits 10 n, [], [], by simp, Or.inl rfl, ?_, Or.inl rfl, Or.inl rfl⟩, ?_⟩
  · rcases Nat.eq_zero_or_pos n with rfl | hn
    · exact Or.inl rfl
    · obtain ⟨d, ds, h1, h2⟩ := toDigits_head n hn
      rw [h1] at hd
      exact Or.inr ⟨d, ds, h1, h2, hd d (by simp), fun x hx => hd x (by simp [hx])⟩
  · rintro c hc rfl
    exact absurd (hd _ (List.mem_of_mem_head? hc)) (by decide)

theorem intArith_laws : Laws intArith where
  numeral := by
    intro f
    cases f with
    | ofNat n => exact (toDigits_numeral n).1
    | negSucc n =>
      obtain ⟨⟨sg, ip, fp, ep, h1, h2, h3, h4, h6⟩, h5⟩ := toDigits_numeral (n + 1)
      rcases h2 with rfl | rfl
      · exact ⟨['-'], ip, fp, ep, by simp [intArith, h1], Or.inr rfl, h3, h4, h6⟩
      · exact absurd rfl (h5 '-' (by rw [h1]; simp))
  read_fmt := by
    intro f
    cases f with
    | ofNat n =>
      have h := (toDigits_numeral n).2
      have h2 := Nat.ofDigitChars_ten_toDigits (n := n)
      show intArith.read (Nat.toDigits 10 n) = _
      simp only [intArith]
      split
      · rename_i hs
        exact absurd rfl (h '-' (by rw [hs]; simp))
      · rw [h2]; rfl
    | negSucc n =>
      show -(Nat.ofDigitChars 10 (Nat.toDigits 10 (n + 1)) 0 : Int) = _
      rw [Nat.ofDigitChars_ten_toDigits]
      rfl
  one_mul := fun x => by show (1 : Int) * x = x; omega
  mul_one := fun x => by show x * (1 : Int) = x; omega
  div_one := fun x => by show x / (1 : Int) = x; omega

/-! ### C34: printed expressions -/

/-- The value of a loaded parameter of the requested type, from the number of half-turns. -/
def inUnit (A : Arith F) (v : F) : PType → F
  | .radians => A.mul v A.pi
  | .halfTurns => v
  | .rotation => v

theorem load_den {A : Arith F} {env : List Char → Loaded F} {s : List Char} {v : F}
    (h : Den A env (parse A s) v) (typ : PType) :
    load A env s typ = some ⟨typ, inUnit A v typ⟩ := by
  obtain ⟨p, hp, ht, rfl⟩ := h (some typ)
  unfold load
  rw [hp]
  obtain ⟨pt, x⟩ := p
  cases pt with
  | radians => exact absurd rfl ht
  | halfTurns => cases typ <;> rfl
  | rotation => cases typ <;> rfl

/-- **C34**, in general: what the decoder loads from the text of an expression is the value of the
expression in which constants close to certain multiples of π have been replaced by these. -/
theorem C34_printed_value {A : Arith F} (L : Laws A) {env : List Char → Loaded F}
    (henv : ∀ n, (env n).typ ≠ .radians) (e : Ex F)
    (hvars : ∀ n ∈ e.vars, IsName n ∧ n ≠ ['p', 'i']) (typ : PType) :
    load A env (e.print A) typ =
      some ⟨typ, inUnit A ((e.mapConst (snapVal A)).eval A fun n => (env n).val) typ⟩ :=
  load_den (printed L henv e hvars).parse typ

theorem mapConst_id {g : F → F} : ∀ e : Ex F, (∀ f ∈ e.consts, g f = f) → e.mapConst g = e
  | .const f, h => by rw [Ex.mapConst, h f (by simp [Ex.consts])]
  | .var _, _ => rfl
  | .op1 o a, h => by rw [Ex.mapConst, mapConst_id a h]
  | .op2 o a b, h => by
    rw [Ex.mapConst, mapConst_id a fun f hf => h f (List.mem_append_left _ hf),
      mapConst_id b fun f hf => h f (List.mem_append_right _ hf)]

/-- **C34**: printing and reading preserves the value of an expression. Partial: no constant may be
close, but not equal, to one of the multiples of π in the table, and inputs must have the form of an
identifier other than `pi`. -/
theorem C34_round_trip_partial {A : Arith F} (L : Laws A) {env : List Char → Loaded F}
    (henv : ∀ n, (env n).typ ≠ .radians) (e : Ex F)
    (hvars : ∀ n ∈ e.vars, IsName n ∧ n ≠ ['p', 'i'])
    (hconst : ∀ f ∈ e.consts, ∀ n, snap A f = some n → n.val A = f) (typ : PType) :
    load A env (e.print A) typ = some ⟨typ, inUnit A (e.eval A fun n => (env n).val) typ⟩ := by
  rw [C34_printed_value L henv e hvars typ, mapConst_id]
  intro f hf
  unfold snapVal
  cases hs : snap A f with
  | none => rfl
  | some n => exact hconst f hf n hs

/-- `(-(x) ** (2)) + max(x, 7)`, with `x = 5`. -/
def exampleEx : Ex Int :=
  .op2 .add (.op1 .neg (.op2 .pow (.var ['x']) (.const 2))) (.op2 .max (.var ['x']) (.const 7))

example : load intArith (fun _ => ⟨.rotation, 5⟩) (exampleEx.print intArith) .halfTurns =
    some ⟨.halfTurns, -18⟩ := by
  rw [C34_round_trip_partial intArith_laws (by simp) exampleEx]
  · rfl
  · intro n hn
    simp only [exampleEx, Ex.vars, List.cons_append, List.nil_append, List.append_nil,
      List.mem_cons, List.not_mem_nil, or_false, or_self] at hn
    subst hn
    exact ⟨isName_of _ _ (by decide) (by decide), by decide⟩
  · intro f hf n hs
    have : intArith.near f (n.val intArith) = true :=
      List.find?_some (p := fun m => intArith.near f (PiName.val intArith m)) hs
    exact (beq_iff_eq.mp this).symm

/-- Constants are changed: a constant which differs from π by `1e-11` is read back as π. -/
theorem C34_snaps_constants :
    let f : Rat := ratArith.pi + 1 / 10 ^ 11
    load ratArith (fun _ => ⟨.rotation, 0⟩) ((Ex.const f).print ratArith) .halfTurns =
      some ⟨.halfTurns, ratArith.pi⟩ ∧
    (Ex.const f).eval ratArith (fun _ => 0) ≠ ratArith.pi := by
  constructor
  · have h : snap ratArith (ratArith.pi + 1 / 10 ^ 11) = some .pi := by decide +kernel
    simp only [Ex.print, printConst, h]
    exact load_den (printed_piName .pi).parse .halfTurns
  · decide +kernel

/-- An input named `pi` is read back as the constant π. -/
theorem C34_variable_named_pi :
    load intArith (fun _ => ⟨.rotation, 5⟩) ((Ex.var ['p', 'i']).print intArith) .halfTurns =
      some ⟨.halfTurns, 3⟩ ∧
    (Ex.var (F := Int) ['p', 'i']).eval intArith (fun _ => 5) = 5 := by
  refine ⟨?_, rfl⟩
  exact load_den (printed_piName (A := intArith) .pi).parse .halfTurns

/-! ### C35: sympy's reading -/

/-- **C35**: the decoder reads an expression as sympy does. Partial: negations and exponents must
not be powers, and functions must have the right number of arguments. -/
theorem C35_sympy_reading_partial {A : Arith F}
    (hneg : ∀ d, A.read ('-' :: d) = A.neg (A.read d)) {env : List Char → Loaded F}
    (henv : ∀ n, (env n).typ ≠ .radians) (t : Py) (hg : t.Grammar) (ht : t.Tame) :
    ∃ v, t.eval A (fun n => (env n).val) = some v ∧
      ∀ typ, load A env t.text typ = some ⟨typ, inUnit A v typ⟩ := by
  obtain ⟨a, ops, v, hc, hh, hd, he⟩ := (pyOK hneg henv t hg ht).den
  refine ⟨v, he, fun typ => load_den ?_ typ⟩
  rw [parse_chain hh hc]
  exact hd

/-- `a - b*c**2 / -2`. -/
def examplePy : Py :=
  .bin .sub 1 1 (.name ['a'])
    (.bin .div 1 1 (.bin .mul 0 0 (.name ['b']) (.bin .pow 0 0 (.name ['c']) (.num ['2'])))
      (.neg (.num ['2'])))

example : examplePy.text = ['a', ' ', '-', ' ', 'b', '*', 'c', '*', '*', '2', ' ', '/', ' ', '-',
    '2'] := rfl

example : examplePy.Grammar ∧ examplePy.Tame := by
  have hn : IsNumeral ['2'] ∧ ∀ c ∈ ['2'].head?, c ≠ '-' :=
    ⟨isNumeral_digit (by decide) (by decide), by simp⟩
  have ha : ∀ c, isAlpha c = true → IsName [c] := fun c h => isName_of c [] h rfl
  refine ⟨⟨⟨by decide, by decide⟩, ha 'a' (by decide), ⟨by decide, by decide⟩,
    ⟨⟨by decide, by decide⟩, ha 'b' (by decide), ⟨by decide, by decide⟩, ha 'c' (by decide), hn⟩,
    by decide, hn⟩, ?_⟩
  simp [examplePy, Py.Tame, Py.level]

/-- `1.5e-7`, as sympy prints it. -/
example : IsNumeral ['1', '.', '5', 'e', '-', '7'] :=
  ⟨[], ['1'], ['.', '5'], ['e', '-', '7'], rfl, Or.inl rfl,
    Or.inr ⟨'1', [], rfl, by decide, by decide, by simp⟩, Or.inr ⟨['5'], rfl, by decide⟩,
    Or.inr ⟨'e', ['-'], '7', [], rfl, Or.inl rfl, by simp, by decide⟩⟩

/-- `2**3**2`. -/
def powPow : Py := .bin .pow 0 0 (.num ['2']) (.bin .pow 0 0 (.num ['3']) (.num ['2']))

/-- `-x**2`. -/
def negPow : Py := .neg (.bin .pow 0 0 (.name ['x']) (.num ['2']))

theorem powPow_grammar : powPow.Grammar := by
  have hn : ∀ d, d ≠ '-' → d ≠ '0' → isDigit d = true →
      IsNumeral [d] ∧ ∀ c ∈ [d].head?, c ≠ '-' := fun d h1 h2 h3 =>
    ⟨isNumeral_digit h2 h3, by simpa using h1⟩
  exact ⟨⟨by decide, by decide⟩, hn '2' (by decide) (by decide) (by decide), ⟨by decide, by decide⟩,
    hn '3' (by decide) (by decide) (by decide), hn '2' (by decide) (by decide) (by decide)⟩

theorem negPow_grammar : negPow.Grammar :=
  ⟨by decide, ⟨by decide, by decide⟩, isName_of _ _ (by decide) (by decide),
    isNumeral_digit (by decide) (by decide), by simp⟩

/-- Powers associate to the left: `2**3**2` is read as 64 and not as 512. -/
theorem C35_power_associativity :
    powPow.Grammar ∧ powPow.eval intArith (fun _ => 0) = some 512 ∧
      load intArith (fun _ => ⟨.rotation, 0⟩) powPow.text .halfTurns = some ⟨.halfTurns, 64⟩ :=
  ⟨powPow_grammar, rfl, rfl⟩

/-- Negation binds tighter than a power: `-x**2` is read as `(-x)**2`. -/
theorem C35_negated_power :
    negPow.Grammar ∧ negPow.eval intArith (fun _ => 5) = some (-25) ∧
      load intArith (fun _ => ⟨.rotation, 5⟩) negPow.text .halfTurns = some ⟨.halfTurns, 25⟩ :=
  ⟨negPow_grammar, rfl, rfl⟩

/-- A function with a wrong number of arguments is accepted by the parser, and then cannot be
loaded: the decoder panics. -/
theorem C35_wrong_arity_panics (A : Arith F) (env : List Char → Loaded F) (typ : PType) :
    parse A ['m', 'a', 'x', '(', '1', ')'] = .call .max [.const (A.read ['1'])] ∧
      load A env ['m', 'a', 'x', '(', '1', ')'] typ = none := by
  have h : parse A ['m', 'a', 'x', '(', '1', ')'] = .call .max [.const (A.read ['1'])] := rfl
  refine ⟨h, ?_⟩
  unfold load
  rw [h]
  simp [process, processArgs, Fn.apply]

/-! ### C36: radians -/

/-- **C36**: the text written for a parameter in radians is the parameter divided by π. Partial: the
text of the parameter must not be a sum or a difference. (If the parameter is a product with π,
this is undone, and the parameter is the value of the text times π.) -/
theorem C36_radians_partial {A : Arith F} (L : Laws A) {env : List Char → Loaded F}
    (henv : ∀ n, (env n).typ ≠ .radians) (e : Ex F)
    (hvars : ∀ n ∈ e.vars, IsName n ∧ n ≠ ['p', 'i'])
    (hconst : ∀ f ∈ e.consts, ∀ n, snap A f = some n → n.val A = f) (hsum : e.isSum A = false) :
    ∃ w, load A env (toHalfTurns (e.print A)) .halfTurns = some ⟨.halfTurns, w⟩ ∧
      (w = A.div (e.eval A fun n => (env n).val) A.pi ∨
        (e.eval A fun n => (env n).val) = A.mul w A.pi) := by
  have hid : e.mapConst (snapVal A) = e := by
    apply mapConst_id
    intro f hf
    unfold snapVal
    cases hs : snap A f with
    | none => rfl
    | some n => exact hconst f hf n hs
  have hp := printed L henv e hvars
  rw [hid] at hp
  rcases toHalfTurns_cases (e.print A) with ⟨u, hu, ht⟩ | ht
  · obtain ⟨w, b, hw, hv⟩ := strip_value L henv e hvars u hu
    rw [hid] at hv
    rw [ht]
    exact ⟨w, load_den hw.parse .halfTurns, Or.inr hv⟩
  · rw [ht]
    rcases divPi_value hp with ⟨_, hd⟩ | ⟨hs, _⟩
    · exact ⟨_, load_den hd .halfTurns, Or.inl rfl⟩
    · rw [hsum] at hs
      exact absurd hs (by decide)

/-- The conversion in exact arithmetic: the value of the text times π is the parameter. -/
theorem C36_radians_exact_partial {A : Arith F} (L : Laws A)
    (hpi : ∀ x, A.mul (A.div x A.pi) A.pi = x) {env : List Char → Loaded F}
    (henv : ∀ n, (env n).typ ≠ .radians) (e : Ex F)
    (hvars : ∀ n ∈ e.vars, IsName n ∧ n ≠ ['p', 'i'])
    (hconst : ∀ f ∈ e.consts, ∀ n, snap A f = some n → n.val A = f) (hsum : e.isSum A = false) :
    load A env (toHalfTurns (e.print A)) .radians =
      some ⟨.radians, e.eval A fun n => (env n).val⟩ := by
  have hid : e.mapConst (snapVal A) = e := by
    apply mapConst_id
    intro f hf
    unfold snapVal
    cases hs : snap A f with
    | none => rfl
    | some n => exact hconst f hf n hs
  have hp := printed L henv e hvars
  rw [hid] at hp
  rcases toHalfTurns_cases (e.print A) with ⟨u, hu, ht⟩ | ht
  · obtain ⟨w, b, hw, hv⟩ := strip_value L henv e hvars u hu
    rw [hid] at hv
    rw [ht, load_den hw.parse .radians, hv]
    rfl
  · rw [ht]
    rcases divPi_value hp with ⟨_, hd⟩ | ⟨hs, _⟩
    · rw [load_den hd .radians]
      simp only [inUnit, hpi]
    · rw [hsum] at hs
      exact absurd hs (by decide)

/-- `x * 3`, printed `(x) * (pi)` in this arithmetic, and written as `x`. -/
example : toHalfTurns ((Ex.op2 .mul (.var ['x']) (.const 3)).print intArith) = ['x'] ∧
    ∃ w, load intArith (fun _ => ⟨.rotation, 5⟩)
        (toHalfTurns ((Ex.op2 .mul (.var ['x']) (.const 3)).print intArith)) .halfTurns =
          some ⟨.halfTurns, w⟩ ∧ (w = 15 / 3 ∨ 15 = w * 3) := by
  refine ⟨rfl, C36_radians_partial intArith_laws (env := fun _ => ⟨.rotation, 5⟩) (by simp)
    (.op2 .mul (.var ['x']) (.const 3)) ?_ ?_ rfl⟩
  · intro n hn
    simp only [Ex.vars, List.append_nil, List.mem_cons, List.not_mem_nil, or_false] at hn
    subst hn
    exact ⟨isName_of _ _ (by decide) (by decide), by decide⟩
  · intro f hf n hs
    have : intArith.near f (n.val intArith) = true :=
      List.find?_some (p := fun m => intArith.near f (PiName.val intArith m)) hs
    exact (beq_iff_eq.mp this).symm

/-- For a sum or a difference only the second operand is divided by π. -/
theorem C36_sum_wrong {A : Arith F} (L : Laws A) {env : List Char → Loaded F}
    (henv : ∀ n, (env n).typ ≠ .radians) (e : Ex F)
    (hvars : ∀ n ∈ e.vars, IsName n ∧ n ≠ ['p', 'i'])
    (hconst : ∀ f ∈ e.consts, ∀ n, snap A f = some n → n.val A = f) (hsum : e.isSum A = true) :
    ∃ o x y, (o = InOp.add ∨ o = InOp.sub) ∧ (e.eval A fun n => (env n).val) = o.apply A x y ∧
      load A env (toHalfTurns (e.print A)) .halfTurns =
        some ⟨.halfTurns, o.apply A x (A.div y A.pi)⟩ := by
  have hid : e.mapConst (snapVal A) = e := by
    apply mapConst_id
    intro f hf
    unfold snapVal
    cases hs : snap A f with
    | none => rfl
    | some n => exact hconst f hf n hs
  have hp := printed L henv e hvars
  rw [hid] at hp
  rcases toHalfTurns_cases (e.print A) with ⟨u, hu, ht⟩ | ht
  · exfalso
    exact strip_not_sum L e (fun n hn => hvars n hn) u hu hsum
  · rw [ht]
    rcases divPi_value hp with ⟨hs, _⟩ | ⟨_, o, x, y, ho, hv, hd⟩
    · rw [hsum] at hs
      exact absurd hs (by decide)
    · exact ⟨o, x, y, ho, hv, load_den hd .halfTurns⟩

/-- The sum of two inputs. -/
def sumEx : Ex Rat := .op2 .add (.var ['x']) (.var ['y'])

/-- The value of the text written for the sum of two inputs of one radian each, in radians, is
`π + 1`. -/
theorem C36_sum_example :
    toHalfTurns (sumEx.print ratArith) =
      ['(', 'x', ')', ' ', '+', ' ', '(', 'y', ')', ' ', '/', ' ', '(', 'p', 'i', ')'] ∧
    load ratArith (fun _ => ⟨.rotation, 1⟩) (toHalfTurns (sumEx.print ratArith)) .radians =
      some ⟨.radians, (1 + 1 / ratArith.pi) * ratArith.pi⟩ ∧
    (1 + 1 / ratArith.pi) * ratArith.pi = ratArith.pi + 1 ∧
    sumEx.eval ratArith (fun _ => 1) = 2 := by
  refine ⟨rfl, rfl, ?_, ?_⟩
  · decide +kernel
  · decide +kernel

/-! ### C37: units -/

/-- **C37**, in exact arithmetic: every sequence of conversions preserves the angle. -/
theorem C37_angle_partial {A : Arith F} (hpi : ∀ x, A.div (A.mul x A.pi) A.pi = x)
    (p : Loaded F) (ts : List PType) :
    angle A (ts.foldl (fun p t => p.withType A t) p) = angle A p := by
  induction ts generalizing p with
  | nil => rfl
  | cons t ts ih =>
    rw [List.foldl_cons, ih]
    obtain ⟨pt, v⟩ := p
    cases pt <;> cases t <;> first | rfl | exact hpi v

/-- A conversion yields the requested type. -/
theorem C37_type (A : Arith F) (p : Loaded F) (t : PType) : (p.withType A t).typ = t := by
  obtain ⟨pt, v⟩ := p
  cases pt <;> cases t <;> rfl

/-- **C37**, in exact arithmetic: converting back restores the parameter. -/
theorem C37_round_trip_partial {A : Arith F} (hpi : ∀ x, A.div (A.mul x A.pi) A.pi = x)
    (hpi' : ∀ x, A.mul (A.div x A.pi) A.pi = x) (p : Loaded F) (ts : List PType) :
    (ts.foldl (fun p t => p.withType A t) p).withType A p.typ = p := by
  have h1 := C37_angle_partial hpi p ts
  have h2 := C37_type A (ts.foldl (fun p t => p.withType A t) p) p.typ
  have h3 := C37_angle_partial hpi (ts.foldl (fun p t => p.withType A t) p) [p.typ]
  simp only [List.foldl_cons, List.foldl_nil] at h3
  generalize (ts.foldl (fun p t => p.withType A t) p).withType A p.typ = q at h2 h3
  rw [h1] at h3
  obtain ⟨pt, v⟩ := p
  obtain ⟨qt, w⟩ := q
  cases h2
  cases pt with
  | radians =>
    have : A.mul (A.div w A.pi) A.pi = A.mul (A.div v A.pi) A.pi := congrArg (A.mul · A.pi) h3
    rw [hpi', hpi'] at this
    rw [this]
  | halfTurns => rw [show w = v from h3]
  | rotation => rw [show w = v from h3]

/-- In any arithmetic, conversions between rotations and half-turns are exact. -/
theorem C37_rotation_exact (A : Arith F) (p : Loaded F) (hp : p.typ ≠ .radians) (ts : List PType)
    (hts : ∀ t ∈ ts, t ≠ .radians) :
    (ts.foldl (fun p t => p.withType A t) p).val = p.val := by
  induction ts generalizing p with
  | nil => rfl
  | cons t ts ih =>
    have ht := hts t (by simp)
    rw [List.foldl_cons, ih _ (by rw [C37_type]; exact ht) fun t' h => hts t' (by simp [h]),
      withType_val hp ht]

example (p : Loaded Rat) (ts : List PType) :
    (ts.foldl (fun p t => p.withType ratArith t) p).withType ratArith p.typ = p := by
  have h0 : ratArith.pi ≠ 0 := by decide +kernel
  exact C37_round_trip_partial (fun x => Rat.mul_div_cancel h0) (fun x => Rat.div_mul_cancel h0) p ts

end Verif.Params
