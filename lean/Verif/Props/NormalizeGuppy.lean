import Verif.Model.NormalizeGuppySpec
import Verif.Props.BorrowSquash

/-
Property C99: normalising programs made by Guppy.
-/
namespace Tket.NormalizeGuppy

variable {H S E X : Type}

/-- The rest of the statements, from a list of stages. -/
def runFrom (o : Options) (p : Parts H E) : List Stage → H → H × Option (Err E)
  | [], h => (h, none)
  | .cfg :: l, h => attempt o.simplifyCfgs p.cfg .simplifyCFG h (runFrom o p l)
  | .untuple :: l, h => attempt o.untuple p.untuple .untuple h (runFrom o p l)
  | .fold :: l, h => attempt o.constantFold p.fold .constantFold h (runFrom o p l)
  | .dead :: l, h => attempt o.deadFuncs p.dead .deadFuncs h (runFrom o p l)
  | .inline :: l, h => runFrom o p l (if o.inlineDfgs then p.inline h else h)
  | .squash :: l, h => runFrom o p l (if o.squashBorrows then p.squash h else h)

theorem run_eq (o : Options) (p : Parts H E) (h : H) : run o p h = runFrom o p order h := rfl

theorem Does.det {p : Parts H E} {s : Stage} {h a b : H} (h1 : Does p s h a) (h2 : Does p s h b) : a = b := by
  cases h1 <;> cases h2 <;> simp_all

theorem Does.not_fails {p : Parts H E} {s : Stage} {h a b : H} {e : Err E} (h1 : Does p s h a) (h2 : Fails p s h b e) :
    False := by
  cases h1 <;> cases h2 <;> simp_all

theorem Fails.det {p : Parts H E} {s : Stage} {h a b : H} {e e' : Err E} (h1 : Fails p s h a e)
    (h2 : Fails p s h b e') : a = b ∧ e = e' := by
  cases h1 <;> cases h2 <;> simp_all

/-- A stage that is on does what its pass does; a stage that is off does nothing. -/
theorem runFrom_cons (o : Options) (p : Parts H E) (s : Stage) (l : List Stage) (h : H) :
    (o.On s = false ∧ runFrom o p (s :: l) h = runFrom o p l h) ∨
    (o.On s = true ∧ ∃ m, Does p s h m ∧ runFrom o p (s :: l) h = runFrom o p l m) ∨
    (o.On s = true ∧ ∃ m e, Fails p s h m e ∧ runFrom o p (s :: l) h = (m, some e)) := by
  have key : ∀ (on : Bool) (pass : H → H × Option E) (wrap : E → Err E) (next : H → H × Option (Err E)),
      (on = false ∧ attempt on pass wrap h next = next h) ∨
      (on = true ∧ ∃ m, pass h = (m, none) ∧ attempt on pass wrap h next = next m) ∨
      (on = true ∧ ∃ m e, pass h = (m, some e) ∧ attempt on pass wrap h next = (m, some (wrap e))) := by
    intro on pass wrap next
    cases on with
    | false => exact .inl ⟨rfl, rfl⟩
    | true =>
      refine .inr ?_
      rcases hp : pass h with ⟨m, _ | e⟩
      · exact .inl ⟨rfl, m, rfl, by simp [attempt, hp]⟩
      · exact .inr ⟨rfl, m, e, rfl, by simp [attempt, hp]⟩
  cases s with
  | cfg =>
    rcases key o.simplifyCfgs p.cfg .simplifyCFG (runFrom o p l) with ⟨h1, h2⟩ | ⟨h1, m, h2, h3⟩ | ⟨h1, m, e, h2, h3⟩
    · exact .inl ⟨h1, h2⟩
    · exact .inr (.inl ⟨h1, m, .cfg h2, h3⟩)
    · exact .inr (.inr ⟨h1, m, _, .cfg h2, h3⟩)
  | untuple =>
    rcases key o.untuple p.untuple .untuple (runFrom o p l) with ⟨h1, h2⟩ | ⟨h1, m, h2, h3⟩ | ⟨h1, m, e, h2, h3⟩
    · exact .inl ⟨h1, h2⟩
    · exact .inr (.inl ⟨h1, m, .untuple h2, h3⟩)
    · exact .inr (.inr ⟨h1, m, _, .untuple h2, h3⟩)
  | fold =>
    rcases key o.constantFold p.fold .constantFold (runFrom o p l) with ⟨h1, h2⟩ | ⟨h1, m, h2, h3⟩ | ⟨h1, m, e, h2, h3⟩
    · exact .inl ⟨h1, h2⟩
    · exact .inr (.inl ⟨h1, m, .fold h2, h3⟩)
    · exact .inr (.inr ⟨h1, m, _, .fold h2, h3⟩)
  | dead =>
    rcases key o.deadFuncs p.dead .deadFuncs (runFrom o p l) with ⟨h1, h2⟩ | ⟨h1, m, h2, h3⟩ | ⟨h1, m, e, h2, h3⟩
    · exact .inl ⟨h1, h2⟩
    · exact .inr (.inl ⟨h1, m, .dead h2, h3⟩)
    · exact .inr (.inr ⟨h1, m, _, .dead h2, h3⟩)
  | inline =>
    cases ho : o.inlineDfgs with
    | false => exact .inl ⟨ho, by simp [runFrom, ho]⟩
    | true => exact .inr (.inl ⟨ho, _, .inline h, by simp [runFrom, ho]⟩)
  | squash =>
    cases ho : o.squashBorrows with
    | false => exact .inl ⟨ho, by simp [runFrom, ho]⟩
    | true => exact .inr (.inl ⟨ho, _, .squash h, by simp [runFrom, ho]⟩)

theorem runFrom_spec (o : Options) (p : Parts H E) : ∀ (l : List Stage) (h : H),
    (∃ h', runFrom o p l h = (h', none) ∧ Runs p (l.filter o.On) h h') ∨
    ∃ pre s post m h' e, l.filter o.On = pre ++ s :: post ∧ Runs p pre h m ∧ Fails p s m h' e ∧
      runFrom o p l h = (h', some e)
  | [], h => .inl ⟨h, rfl, .nil h⟩
  | s :: l, h => by
    rcases runFrom_cons o p s l h with ⟨h1, h2⟩ | ⟨h1, m, h2, h3⟩ | ⟨h1, m, e, h2, h3⟩
    · rw [h2, List.filter_cons_of_neg (by simp [h1])]
      exact runFrom_spec o p l h
    · rw [h3, List.filter_cons_of_pos h1]
      rcases runFrom_spec o p l m with ⟨h', g1, g2⟩ | ⟨pre, t, post, n, h', e, g1, g2, g3, g4⟩
      · exact .inl ⟨h', g1, .cons h2 g2⟩
      · exact .inr ⟨s :: pre, t, post, n, h', e, by rw [g1, List.cons_append], .cons h2 g2, g3, g4⟩
    · rw [List.filter_cons_of_pos h1]
      exact .inr ⟨[], s, _, h, m, e, rfl, .nil h, h2, h3⟩

theorem Runs.det {p : Parts H E} {l : List Stage} {h a b : H} (h1 : Runs p l h a) (h2 : Runs p l h b) : a = b := by
  induction h1 with
  | nil => cases h2; rfl
  | cons d _ ih =>
    cases h2 with
    | cons d' r' => exact ih (d.det d' ▸ r')

theorem Runs.stops {p : Parts H E} : ∀ {pre : List Stage} {s : Stage} {post : List Stage} {h m a b : H} {e : Err E},
    Runs p pre h m → Fails p s m a e → ¬ Runs p (pre ++ s :: post) h b
  | [], _, _, _, _, _, _, _, .nil _, hf, .cons d _ => d.not_fails hf
  | _ :: _, _, _, _, _, _, _, _, .cons d r, hf, .cons d' r' => by
    obtain rfl := d.det d'
    exact r.stops hf r'

/-- The pass succeeds exactly if all passes that are on succeed, one after the other in the fixed order; then its
result is theirs. -/
theorem C99_succeeds_iff (o : Options) (p : Parts H E) (h h' : H) :
    run o p h = (h', none) ↔ Runs p (order.filter o.On) h h' := by
  rw [run_eq]
  rcases runFrom_spec o p order h with ⟨k, g1, g2⟩ | ⟨pre, s, post, m, k, e, g1, g2, g3, g4⟩
  · rw [g1]
    constructor
    · intro he
      simp only [Prod.mk.injEq, and_true] at he
      exact he ▸ g2
    · intro hr
      rw [g2.det hr]
  · rw [g4]
    constructor
    · simp
    · intro hr
      rw [g1] at hr
      exact absurd hr (g2.stops g3)

theorem Runs.first {p : Parts H E} : ∀ {pre pre' : List Stage} {s s' : Stage} {post post' : List Stage}
    {h m m' a a' : H} {e e' : Err E}, pre ++ s :: post = pre' ++ s' :: post' → Runs p pre h m → Runs p pre' h m' →
    Fails p s m a e → Fails p s' m' a' e' → a = a' ∧ e = e'
  | [], [], _, _, _, _, _, _, _, _, _, _, _, heq, .nil _, .nil _, f, f' => by
    simp only [List.nil_append, List.cons.injEq] at heq
    obtain ⟨rfl, _⟩ := heq
    exact f.det f'
  | [], _ :: _, _, _, _, _, _, _, _, _, _, _, _, heq, .nil _, .cons d _, f, _ => by
    simp only [List.nil_append, List.cons_append, List.cons.injEq] at heq
    obtain ⟨rfl, _⟩ := heq
    exact (d.not_fails f).elim
  | _ :: _, [], _, _, _, _, _, _, _, _, _, _, _, heq, .cons d _, .nil _, _, f' => by
    simp only [List.nil_append, List.cons_append, List.cons.injEq] at heq
    obtain ⟨rfl, _⟩ := heq
    exact (d.not_fails f').elim
  | _ :: _, _ :: _, _, _, _, _, _, _, _, _, _, _, _, heq, .cons d r, .cons d' r', f, f' => by
    simp only [List.cons_append, List.cons.injEq] at heq
    obtain ⟨rfl, heq⟩ := heq
    obtain rfl := d.det d'
    exact r.first heq r' f f'

/-- The pass fails exactly if one of the passes that are on fails after all before it succeeded; the error names
it, the passes after it do not run, and the program is left as it made it. -/
theorem C99_fails_iff (o : Options) (p : Parts H E) (h h' : H) (e : Err E) :
    run o p h = (h', some e) ↔
      ∃ pre s post m, order.filter o.On = pre ++ s :: post ∧ Runs p pre h m ∧ Fails p s m h' e := by
  rw [run_eq]
  rcases runFrom_spec o p order h with ⟨k, g1, g2⟩ | ⟨pre, s, post, m, k, e', g1, g2, g3, g4⟩
  · rw [g1]
    constructor
    · simp
    · rintro ⟨pre, s, post, m, q1, q2, q3⟩
      rw [q1] at g2
      exact absurd g2 (q2.stops q3)
  · rw [g4]
    constructor
    · intro he
      simp only [Prod.mk.injEq, Option.some.injEq] at he
      obtain ⟨rfl, rfl⟩ := he
      exact ⟨pre, s, post, m, g1, g2, g3⟩
    · rintro ⟨pre', s', post', m', q1, q2, q3⟩
      obtain ⟨rfl, rfl⟩ := g2.first (g1.symm.trans q1) q2 g3 q3
      rfl

/-- If every pass that is on keeps the meaning, also when it fails, then the meaning is kept. -/
theorem C99_meaning (o : Options) (p : Parts H E) {Same : H → H → Prop} (hrefl : ∀ h, Same h h)
    (htrans : ∀ {a b c}, Same a b → Same b c → Same a c)
    (hdoes : ∀ s h h', o.On s = true → Does p s h h' → Same h h')
    (hfails : ∀ s h h' e, o.On s = true → Fails p s h h' e → Same h h') (h : H) : Same h (run o p h).1 := by
  have key : ∀ {l : List Stage} {a b : H}, (∀ s ∈ l, o.On s = true) → Runs p l a b → Same a b := by
    intro l a b hl hr
    induction hr with
    | nil h => exact hrefl h
    | cons d _ ih => exact htrans (hdoes _ _ _ (hl _ (by simp)) d) (ih fun s hs => hl s (by simp [hs]))
  have hon : ∀ s ∈ order.filter o.On, o.On s = true := fun s hs => (List.mem_filter.mp hs).2
  rw [run_eq]
  rcases runFrom_spec o p order h with ⟨k, g1, g2⟩ | ⟨pre, s, post, m, k, e, g1, g2, g3, g4⟩
  · rw [g1]
    exact key hon g2
  · rw [g4]
    rw [g1] at hon
    exact htrans (key (fun t ht => hon t (by simp [ht])) g2) (hfails _ _ _ _ (hon s (by simp)) g3)

/-- The error for inlining is never given. -/
theorem C99_inline_never_fails (o : Options) (p : Parts H E) (h h' : H) (e : E) :
    run o p h ≠ (h', some (.inline e)) := by
  rw [ne_eq, C99_fails_iff]
  rintro ⟨_, _, _, _, _, _, hf⟩
  cases hf

/-- With all options off nothing is done. -/
theorem C99_off (o : Options) (p : Parts H E) (h : H) (hoff : ∀ s, o.On s = false) : run o p h = (h, none) := by
  rw [C99_succeeds_iff]
  have : order.filter o.On = [] := List.filter_eq_nil_iff.mpr (by simp [hoff])
  rw [this]
  exact .nil h

/-- Every option is the last one that was set, in whatever order the others are set. -/
theorem C99_setters (o : Options) (b : Bool) :
    (∀ s, (o.setCfgs b).On s = if s = .cfg then b else o.On s) ∧
    (∀ s, (o.setUntuple b).On s = if s = .untuple then b else o.On s) ∧
    (∀ s, (o.setFold b).On s = if s = .fold then b else o.On s) ∧
    (∀ s, (o.setDead b).On s = if s = .dead then b else o.On s) ∧
    (∀ s, (o.setInline b).On s = if s = .inline then b else o.On s) ∧
    (∀ s, (o.setSquash b).On s = if s = .squash then b else o.On s) := by
  refine ⟨?_, ?_, ?_, ?_, ?_, ?_⟩ <;> intro s <;> cases s <;> rfl

/-- The Python function on a circuit of tket: a new object with the result of the passes that the arguments turn on
and of squashing borrows; no other object changes. -/
theorem C99_python (cv : Convert H S X) (p : Parts H E) (k : Kwargs) (mem : List (PyCirc H S)) (i : Nat) (h h' : H)
    (hi : mem[i]? = some (.tket h)) (hr : Runs p (order.filter k.On) h h') :
    normalizePy cv p k mem i = (mem ++ [.tket h'], .ok mem.length) := by
  have hon : k.options.On = k.On := by
    funext s
    cases s <;> rfl
  have := (C99_succeeds_iff k.options p h h').mpr (hon ▸ hr)
  simp [normalizePy, hi, withCirc, this, convert]

/-- On a circuit of pytket: the result is a circuit of pytket. -/
theorem C99_python_pytket (cv : Convert H S X) (p : Parts H E) (k : Kwargs) (mem : List (PyCirc H S)) (i : Nat) (s s' : S)
    (h h' : H) (hi : mem[i]? = some (.tket1 s)) (hd : cv.decode s = .ok h) (hr : Runs p (order.filter k.On) h h')
    (he : cv.encode h' = .ok s') : normalizePy cv p k mem i = (mem ++ [.tket1 s'], .ok mem.length) := by
  have hon : k.options.On = k.On := by
    funext s
    cases s <;> rfl
  have := (C99_succeeds_iff k.options p h h').mpr (hon ▸ hr)
  simp [normalizePy, hi, withCirc, hd, this, convert, he]

/-- In all cases the objects that were there stay as they were, also if an exception is raised. -/
theorem C99_python_kept (cv : Convert H S X) (p : Parts H E) (k : Kwargs) (mem : List (PyCirc H S)) (i j : Nat)
    (c : PyCirc H S) (hj : mem[j]? = some c) : (normalizePy cv p k mem i).1[j]? = some c := by
  have hlt := (List.getElem?_eq_some_iff.mp hj).1
  rw [normalizePy]
  split
  · exact hj
  · split
    · simp only
      rw [List.getElem?_append_left hlt, hj]
    · exact hj

/-- If a pass fails, its error is the exception. -/
theorem C99_python_error (cv : Convert H S X) (p : Parts H E) (k : Kwargs) (mem : List (PyCirc H S)) (i : Nat) (h : H)
    (hi : mem[i]? = some (.tket h)) (e : Err E) :
    (normalizePy cv p k mem i).2 = .error (.normalize e) ↔ ∃ pre s post m h', order.filter k.On = pre ++ s :: post ∧
      Runs p pre h m ∧ Fails p s m h' e := by
  have hon : k.options.On = k.On := by
    funext s
    cases s <;> rfl
  have key := C99_fails_iff k.options p h
  rw [hon] at key
  constructor
  · intro hq
    rcases hrun : run k.options p h with ⟨h', _ | e'⟩
    · simp [normalizePy, hi, withCirc, hrun, convert] at hq
    · simp only [normalizePy, hi, withCirc, hrun, Except.error.injEq, PyErr.normalize.injEq] at hq
      subst hq
      obtain ⟨pre, s, post, m, q⟩ := (key h' e').mp hrun
      exact ⟨pre, s, post, m, h', q⟩
  · rintro ⟨pre, s, post, m, h', q⟩
    have hrun := (key h' e).mpr ⟨pre, s, post, m, q⟩
    simp [normalizePy, hi, withCirc, hrun]

/-! ### Findings -/

section Findings

open Tket.BorrowSquash

/-- Passes on a dataflow region: only squashing borrows, as modelled, changes anything. -/
def regionParts : Parts G Unit where
  cfg g := (g, none)
  untuple g := (g, none)
  fold g := (g, none)
  dead g := (g, none)
  inline g := g
  squash g := ((g.squash 10 (0, 0)).map (·.1)).getD g

/-- With every argument of the Python function turned off, a return and a borrow are still removed: there is no
argument for it. -/
theorem C99_python_cannot_turn_off : ∃ r, (normalizePy (S := Unit) (X := Unit) ⟨fun _ => .error (), fun _ => .error ()⟩
      regionParts ⟨false, false, false, false, false⟩ [.tket exampleG] 0) = ([.tket exampleG, .tket r], .ok 1) ∧
    exampleG.nodes.length = 7 ∧ r.nodes.length = 5 :=
  ⟨_, rfl, rfl, by decide⟩

/-- The defaults differ: without arguments constants are folded by the pass of Rust, and not from Python. -/
theorem C99_defaults_differ : Options.default.On .fold = true ∧ (Kwargs.options {}).On .fold = false ∧
    ∀ s, s ≠ .fold → (Kwargs.options {}).On s = Options.default.On s :=
  ⟨rfl, rfl, by intro s; cases s <;> simp [Options.On, Kwargs.options, Options.default, Options.setCfgs,
    Options.setUntuple, Options.setFold, Options.setDead, Options.setInline]⟩

/-- A failing pass leaves a program that is partly changed. -/
theorem C99_failure_leaves_changes : ∃ (p : Parts Nat String) (e : String),
    run .default p 0 = (1, some (.untuple e)) ∧
    normalizePy (S := Unit) (X := Unit) ⟨fun _ => .error (), fun _ => .error ()⟩ p {} [.tket 0] 0 =
      ([.tket 0], .error (.normalize (.untuple e))) :=
  ⟨⟨fun h => (h + 1, none), fun h => (h, some "e"), fun h => (h, none), fun h => (h, none), id, id⟩, "e", rfl, rfl⟩

end Findings

/-! ### Examples -/

/-- Passes that note that they ran; one of them fails on programs where folding ran twice. -/
def notes : Parts (List Nat) String where
  cfg h := (h ++ [1], none)
  untuple h := (h ++ [2], none)
  fold h := if 3 ∈ h then (h ++ [30], some "again") else (h ++ [3], none)
  dead h := (h ++ [4], none)
  inline h := h ++ [5]
  squash h := h ++ [6]

example : run .default notes [] = ([1, 2, 3, 4, 5, 6], none) ∧
    run (Options.default.setUntuple false) notes [] = ([1, 3, 4, 5, 6], none) ∧
    run .default notes [3] = ([3, 1, 2, 30], some (.constantFold "again")) := by decide

example : Runs notes (order.filter (Options.default.setUntuple false).On) [] [1, 3, 4, 5, 6] :=
  (C99_succeeds_iff _ _ _ _).mp (by decide)

example : ∃ pre s post m, order.filter Options.default.On = pre ++ s :: post ∧ Runs notes pre [3] m ∧
    Fails notes s m [3, 1, 2, 30] (.constantFold "again") :=
  (C99_fails_iff _ _ _ _ _).mp (by decide)

/-- A meaning that all passes keep. -/
example : [7] <+: (run .default notes [7]).1 :=
  C99_meaning .default notes (Same := fun a b => a <+: b) (fun h => List.prefix_refl h) (fun h g => h.trans g)
    (by
      intro s h h' _ hd
      cases hd with
      | cfg q => simp only [notes, Prod.mk.injEq, and_true] at q; exact q ▸ List.prefix_append _ _
      | untuple q => simp only [notes, Prod.mk.injEq, and_true] at q; exact q ▸ List.prefix_append _ _
      | fold q =>
        simp only [notes] at q
        split at q
        · simp at q
        · simp only [Prod.mk.injEq, and_true] at q
          exact q ▸ List.prefix_append _ _
      | dead q => simp only [notes, Prod.mk.injEq, and_true] at q; exact q ▸ List.prefix_append _ _
      | inline => exact List.prefix_append _ _
      | squash => exact List.prefix_append _ _)
    (by
      intro s h h' e _ hf
      cases hf with
      | cfg q => simp [notes] at q
      | untuple q => simp [notes] at q
      | fold q =>
        simp only [notes] at q
        split at q
        · simp only [Prod.mk.injEq, Option.some.injEq] at q
          exact q.1 ▸ List.prefix_append _ _
        · simp at q
      | dead q => simp [notes] at q) [7]

example : normalizePy (S := List Nat) (X := String) ⟨fun s => .ok (s ++ [8]), fun h => .ok (h ++ [9])⟩ notes {} [.tket1 []] 0 =
    ([.tket1 [], .tket1 [8, 1, 2, 4, 5, 6, 9]], .ok 1) := rfl

end Tket.NormalizeGuppy
