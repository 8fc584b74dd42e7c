import Verif.Lemmas.OpMap

/-
C90: the functions generated for temporary operations.
-/
namespace Verif.OpMap

variable {K F : Type} [DecidableEq K]

omit [DecidableEq K] in
theorem collect_eq {t : Table K F} {fs : List (K × F)} (h : collect t = some fs) :
    keys t = fs.map Prod.fst ∧ ∀ k f, (k, f) ∈ fs → (k, some f) ∈ t := by
  unfold collect at h
  induction t generalizing fs with
  | nil => cases h; exact ⟨rfl, by simp⟩
  | cons e t ih =>
    rw [List.mapM_cons] at h
    obtain ⟨k, v⟩ := e
    cases v with
    | none => cases h
    | some f =>
      cases ht : t.mapM fun e : K × Option F => e.2.map fun f => (e.1, f) with
      | none => rw [ht] at h; cases h
      | some gs =>
        rw [ht] at h
        cases h
        obtain ⟨h1, h2⟩ := ih ht
        refine ⟨by rw [List.map_cons, ← h1]; rfl, ?_⟩
        intro k' f' hm
        rcases List.mem_cons.mp hm with hm | hm
        · cases hm; exact List.mem_cons_self ..
        · exact List.mem_cons_of_mem _ (h2 _ _ hm)

omit [DecidableEq K] in
theorem collect_some (t : Table K F) (h : ∀ e ∈ t, ∃ f, e.2 = some f) : ∃ fs, collect t = some fs := by
  unfold collect
  induction t with
  | nil => exact ⟨[], rfl⟩
  | cons e t ih =>
    obtain ⟨f, hf⟩ := h e (by simp)
    obtain ⟨fs, hfs⟩ := ih fun e he => h e (List.mem_cons_of_mem _ he)
    refine ⟨(e.1, f) :: fs, ?_⟩
    rw [List.mapM_cons, hf, hfs]
    rfl

theorem collect_none {t : Table K F} {k : K} (h : look t k = some none) : collect t = none := by
  cases hc : collect t with
  | none => rfl
  | some fs =>
    exfalso
    obtain ⟨e, he, hv⟩ : ∃ e ∈ t, e.2 = none := by
      unfold look at h
      rw [Option.map_eq_some_iff] at h
      obtain ⟨e, he, hv⟩ := h
      exact ⟨e, List.mem_of_find?_eq_some he, hv⟩
    unfold collect at hc
    clear h
    induction t generalizing fs with
    | nil => cases he
    | cons e' t ih =>
      rw [List.mapM_cons] at hc
      rcases List.mem_cons.mp he with rfl | he
      · rw [hv] at hc; cases hc
      · cases hv' : e'.2 with
        | none => rw [hv'] at hc; cases hc
        | some f =>
          cases ht : t.mapM fun e : K × Option F => e.2.map fun f => (e.1, f) with
          | none => rw [hv', ht] at hc; cases hc
          | some gs => exact ih _ ht he

/-- If lowering succeeds, every temporary operation that is in the program or in one of the functions has exactly one
function, the one that its builder made, and there are no others. -/
theorem C90_functions (body : K → Body K F) (n : Nat) (ks : List K) (fs : List (K × F))
    (h : lower body n ks = .done fs) :
    (fs.map Prod.fst).Nodup ∧ (∀ k, k ∈ fs.map Prod.fst ↔ Needed body ks k) ∧
      ∀ k f, (k, f) ∈ fs → (body k).starts ∧ (body k).result = some f := by
  unfold lower at h
  obtain ⟨hn, a, ha, hneed, hok⟩ := all_step body n ([] : Table K F) ks
  generalize runAll (insertWith body n) [] ks = r at *
  obtain ⟨t, o⟩ := r
  cases o with
  | err => cases h
  | fuel => cases h
  | ok =>
    simp only at h hn ha
    cases hc : collect t with
    | none => rw [hc] at h; cases h
    | some gs =>
      rw [hc] at h
      cases h
      obtain ⟨hk, hm⟩ := collect_eq hc
      obtain ⟨h1, h2⟩ := hok rfl
      rw [List.nil_append] at ha
      subst ha
      rw [← hk]
      refine ⟨hn List.nodup_nil, fun k => ⟨fun hkt => ?_, fun hneed => ?_⟩, fun k f hf => ?_⟩
      · obtain ⟨e, he, rfl⟩ := List.mem_map.mp hkt
        exact hneed e he
      · induction hneed with
        | given hk => exact h2 _ hk
        | asked _ hr ih =>
          obtain ⟨e, he, rfl⟩ := List.mem_map.mp ih
          exact (h1 e he).2.2 _ hr
      · obtain ⟨i, ⟨g, hg, hres⟩, -⟩ := h1 _ (hm k f hf)
        cases hg
        exact ⟨i, hres⟩

/-- Lowering never panics at a placeholder that was not replaced. -/
theorem C90_no_panic (body : K → Body K F) (n : Nat) (ks : List K) : lower body n ks ≠ .panic := by
  unfold lower
  obtain ⟨hn, a, ha, hneed, hok⟩ := all_step body n ([] : Table K F) ks
  generalize runAll (insertWith body n) [] ks = r at *
  obtain ⟨t, o⟩ := r
  cases o with
  | err => simp
  | fuel => simp
  | ok =>
    simp only at ha ⊢
    rw [List.nil_append] at ha
    subst ha
    obtain ⟨fs, hfs⟩ := collect_some t fun e he => by
      obtain ⟨f, hf, -⟩ := ((hok rfl).1 e he).2.1
      exact ⟨f, hf⟩
    rw [hfs]
    simp

/-- Lowering ends, also if functions ask for each other in a circle, and succeeds exactly if all functions that are
needed can be built. -/
theorem C90_succeeds_iff (body : K → Body K F) (S : Finset K) (hS : ∀ s ∈ S, ∀ r ∈ (body s).requests, r ∈ S)
    (n : Nat) (hn : S.card < n) (ks : List K) (hks : ∀ k ∈ ks, k ∈ S) :
    ((∃ fs, lower body n ks = .done fs) ↔
      ∀ k, Needed body ks k → (body k).starts ∧ (body k).result.isSome) ∧
    (lower body n ks = .error ↔ ∃ k, Needed body ks k ∧ ((body k).starts = false ∨ (body k).result = none)) := by
  have hf : (runAll (insertWith body n) ([] : Table K F) ks).2 ≠ .fuel :=
    runAll_fuel body S hS n ks [] hks (by simpa [keys] using hn)
  have herr := runAll_err (insertWith_reason body n) ([] : Table K F) ks
  have hp := C90_no_panic body n ks
  have hfun := C90_functions body n ks
  unfold lower at hp hfun ⊢
  generalize runAll (insertWith body n) ([] : Table K F) ks = r at *
  obtain ⟨t, o⟩ := r
  cases o with
  | fuel => exact absurd rfl hf
  | err =>
    obtain ⟨x, hx, hb⟩ := herr rfl
    refine ⟨⟨fun ⟨fs, h⟩ => (by cases h), fun h => ?_⟩, ⟨fun _ => ⟨x, hx, hb⟩, fun _ => rfl⟩⟩
    obtain ⟨h1, h2⟩ := h x hx
    rcases hb with hb | hb
    · rw [hb] at h1; cases h1
    · rw [hb] at h2; cases h2
  | ok =>
    simp only at hp hfun ⊢
    cases hc : collect t with
    | none => rw [hc] at hp; exact absurd rfl hp
    | some fs =>
      rw [hc] at hfun
      obtain ⟨-, h2, h3⟩ := hfun fs rfl
      have hall : ∀ k, Needed body ks k → (body k).starts ∧ (body k).result.isSome := by
        intro k hk
        obtain ⟨⟨k', f⟩, he, rfl⟩ := List.mem_map.mp ((h2 k).mpr hk)
        obtain ⟨i, j⟩ := h3 _ _ he
        exact ⟨i, by rw [j]; rfl⟩
      refine ⟨⟨fun _ => hall, fun _ => ⟨fs, rfl⟩⟩, ⟨fun h => (by cases h), ?_⟩⟩
      rintro ⟨k, hk, hb⟩
      obtain ⟨h1, h2⟩ := hall k hk
      rcases hb with hb | hb
      · rw [hb] at h1; cases h1
      · rw [hb] at h2; cases h2

/-- Pairs of arrays of qubits, where the function of an operation of depth `n + 1` uses the operation of depth `n` twice,
and one that uses itself. -/
def exBody : Nat → Body Nat String
  | 0 => ⟨true, [], some "leaf"⟩
  | 7 => ⟨true, [7, 0], some "loop"⟩
  | 9 => ⟨true, [], none⟩
  | n + 1 => ⟨true, [n, n], some "node"⟩

example : (∀ s ∈ ({0, 1, 2, 7} : Finset Nat), ∀ r ∈ (exBody s).requests, r ∈ ({0, 1, 2, 7} : Finset Nat)) ∧
    lower exBody 5 [2, 1, 7] = .done [(2, "node"), (1, "node"), (0, "leaf"), (7, "loop")] ∧
    lower exBody 5 [1, 9] = .error :=
  ⟨by decide, rfl, rfl⟩

/-- What is in the map stays as it is, whatever is asked for later. -/
theorem C90_kept (body : K → Body K F) (n : Nat) (t : Table K F) (ks : List K) (k : K) (hk : (look t k).isSome) :
    look (runAll (insertWith body n) t ks).1 k = look t k := by
  obtain ⟨-, a, ha, -, -⟩ := all_step body n t ks
  rw [ha]
  exact look_append a ((look_isSome t k).mp hk)

/-- After a function could not be built the map is of no use: the operation counts as present, and whatever is built
later, collecting the functions panics. (Lowering is safe from this only because it gives up at the first error.) -/
theorem C90_failure_stays (body : K → Body K F) (n : Nat) (t t' : Table K F) (k : K) (hs : (body k).starts)
    (h : insertWith body n t k = (t', .err)) :
    (∀ m, insertWith body (m + 1) t' k = (t', .ok)) ∧
      ∀ m ks, collect (runAll (insertWith body m) t' ks).1 = none := by
  obtain ⟨-, h | hl⟩ := insertWith_err body n h
  · rw [h.1] at hs; cases hs
  · have hi : (look t' k).isSome := by rw [hl]; rfl
    constructor
    · intro m
      unfold insertWith
      rw [if_pos hi]
    · intro m ks
      apply collect_none (k := k)
      rw [C90_kept body m t' ks k hi, hl]

example : ∃ t', insertWith exBody 3 [(0, some "leaf")] 9 = (t', .err) ∧ (exBody 9).starts := ⟨_, rfl, rfl⟩


/-! ### Names -/

variable {T : Type}

/-- Different requests are different operations. -/
theorem C90_keys (flatArray : Kind → Nat → T → List T) (flatTuple : List T → List T) (q : T) (a b : Ask T)
    (h : a.key flatArray flatTuple q = b.key flatArray flatTuple q) : a = b := by
  have h1 : a.opName = b.opName := congrArg Prod.fst h
  have h2 := congrArg Prod.snd h
  unfold Ask.key at h2
  rcases a with ⟨_ | _, _⟩ | ⟨_ | _ | _, _ | _, _, _⟩ | ⟨_ | _, _⟩ | _ <;>
    rcases b with ⟨_ | _, _⟩ | ⟨_ | _ | _, _ | _, _, _⟩ | ⟨_ | _, _⟩ | _ <;>
    first
    | (exfalso; simp [Ask.opName] at h1; done)
    | skip
  all_goals simp only [List.cons.injEq, Arg.ty.injEq, Arg.nat.injEq, Arg.list.injEq, and_true] at h2
  case barrier.barrier =>
    have := congrArg List.length h2
    simp only [List.length_replicate] at this
    rw [this]
  all_goals simp_all

/-- Different operations have functions with different names, if they do not make options. -/
theorem C90_names_partial (a b : Ask T) (ha : ∀ t, a ≠ .option false t) (h : a.funcName = b.funcName) : a = b := by
  have h1 : a.opName = b.opName := congrArg Prod.fst h
  have h2 := congrArg Prod.snd h
  unfold Ask.funcName at h2
  rcases a with ⟨_ | _, _⟩ | ⟨_ | _ | _, _ | _, _, _⟩ | ⟨_ | _, _⟩ | _ <;>
    rcases b with ⟨_ | _, _⟩ | ⟨_ | _ | _, _ | _, _, _⟩ | ⟨_ | _, _⟩ | _ <;>
    first
    | (exfalso; simp [Ask.opName] at h1; done)
    | skip
  all_goals simp_all

example : ∀ t, (Ask.array .array true 2 "qubit") ≠ .option false t := by simp

/-- All functions that make options have the same name, though the operations differ. (`repack_option` is public and
takes any type; for barriers it is called with `qubit` only.) -/
theorem C90_names_wrong (flatArray : Kind → Nat → T → List T) (flatTuple : List T → List T) (q t u : T) (h : t ≠ u) :
    (Ask.option false t).key flatArray flatTuple q ≠ (Ask.option false u).key flatArray flatTuple q ∧
      (Ask.option false t).funcName = (Ask.option false u).funcName := by
  refine ⟨fun hk => h ?_, rfl⟩
  have := C90_keys flatArray flatTuple q _ _ hk
  cases this
  rfl

end Verif.OpMap
