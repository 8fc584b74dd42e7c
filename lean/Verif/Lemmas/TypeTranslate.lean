import Verif.Model.TypeTranslateSpec

/-
Lemmas about the translation of types to registers.
-/
namespace Verif.TypeTranslate

mutual
theorem same_iff : ∀ (a b : Ty), a.same b = true ↔ a = b
  | .ext e n as, b => by
    cases b with
    | ext e' n' as' =>
      simp only [Ty.same, Bool.and_eq_true, beq_iff_eq, sameAll_iff as as', Ty.ext.injEq,
        and_assoc]
    | _ => simp [Ty.same]
  | .sum vs, b => by
    cases b with
    | sum vs' => simp only [Ty.same, sameAll_iff vs vs', Ty.sum.injEq]
    | _ => simp [Ty.same]
  | .row vs, b => by
    cases b with
    | row vs' => simp only [Ty.same, sameAll_iff vs vs', Ty.row.injEq]
    | _ => simp [Ty.same]
  | .other n, b => by
    cases b with
    | other n' => simp [Ty.same]
    | _ => simp [Ty.same]
theorem sameAll_iff : ∀ (as bs : List Ty), sameAll as bs = true ↔ as = bs
  | [], bs => by cases bs <;> simp [sameAll]
  | a :: as, bs => by
    cases bs with
    | nil => simp [sameAll]
    | cons b bs => simp only [sameAll, Bool.and_eq_true, same_iff a b, sameAll_iff as bs,
        List.cons.injEq]
end

theorem proper_eq (o : Option Count) : proper o = nonEmpty o := by
  cases o with
  | none => rfl
  | some c =>
    obtain ⟨q, b, p⟩ := c
    cases q <;> cases b <;> cases p <;> simp [proper, nonEmpty, Count.isEmpty, Option.filter]

theorem noParams_eq (o : Option Count) : noParams o = o.filter (fun c => c.params = 0) := by
  cases o with
  | none => rfl
  | some c => by_cases h : c.params = 0 <;> simp [noParams, Option.filter, h]

theorem firstAnswer_eq (n : Nat) (args : List (Option Count)) (l : List Translator) :
    firstAnswer n args l = l.findSome? (fun tr => tr.run n args) := by
  induction l with
  | nil => rfl
  | cons tr l ih =>
    rw [firstAnswer, List.findSome?_cons]
    cases tr.run n args with
    | some c => rfl
    | none => exact ih

/-! ### The index -/

/-- The index of an extension: as built by `add_type_translator`. -/
def indexOf (trs : List Translator) (k e : Nat) : List Nat :=
  match trs with
  | [] => []
  | tr :: trs => List.replicate (tr.exts.count e) k ++ indexOf trs (k + 1) e

theorem foldl_pushIndex (idx : Nat) (es : List Nat) (m : Nat → List Nat) (x : Nat) :
    (es.foldl (pushIndex idx) m) x = m x ++ List.replicate (es.count x) idx := by
  induction es generalizing m with
  | nil => simp
  | cons e es ih =>
    rw [List.foldl_cons, ih, pushIndex]
    by_cases h : x = e
    · subst h
      rw [if_pos rfl, List.count_cons_self, List.append_assoc]
      congr 1
    · rw [if_neg h, List.count_cons_of_ne (fun h' => h h'.symm)]

theorem indexOf_append (trs : List Translator) (tr : Translator) (k e : Nat) :
    indexOf (trs ++ [tr]) k e
      = indexOf trs k e ++ List.replicate (tr.exts.count e) (k + trs.length) := by
  induction trs generalizing k with
  | nil => simp [indexOf]
  | cons t trs ih =>
    rw [List.cons_append, indexOf, ih, indexOf, List.append_assoc, List.length_cons]
    congr 3
    omega

theorem mem_indexOf {trs : List Translator} {k e i : Nat} (h : i ∈ indexOf trs k e) :
    k ≤ i ∧ i < k + trs.length := by
  induction trs generalizing k with
  | nil => cases h
  | cons t trs ih =>
    rw [indexOf, List.mem_append] at h
    rw [List.length_cons]
    cases h with
    | inl h => have := List.eq_of_mem_replicate h; omega
    | inr h => have := ih h; omega

theorem findSome_replicate {α β : Type} (f : α → Option β) (a : α) (n : Nat) (hn : n ≠ 0)
    (l : List α) : (List.replicate n a ++ l).findSome? f = (a :: l).findSome? f := by
  induction n with
  | zero => exact absurd rfl hn
  | succ n ih =>
    rw [List.replicate_succ, List.cons_append, List.findSome?_cons, List.findSome?_cons]
    cases hf : f a with
    | some b => rfl
    | none =>
      by_cases h0 : n = 0
      · subst h0; rfl
      · rw [ih h0, List.findSome?_cons, hf]

/-- Going through the index finds the same translator as going through the list. -/
theorem indexOf_chosen (pre trs : List Translator) (e n : Nat) (args : List (Option Count)) :
    ((indexOf trs pre.length e).filterMap (fun i => (pre ++ trs)[i]?)).findSome?
        (fun tr => tr.run n args) = chosen trs e n args := by
  induction trs generalizing pre with
  | nil => simp [indexOf, chosen]
  | cons tr trs ih =>
    have ih' := ih (pre ++ [tr])
    rw [List.length_append, List.append_assoc, List.singleton_append] at ih'
    have hget : (pre ++ tr :: trs)[pre.length]? = some tr := by simp
    rw [indexOf, List.filterMap_append]
    have hrep : (List.replicate (tr.exts.count e) pre.length).filterMap
        (fun i => (pre ++ tr :: trs)[i]?) = List.replicate (tr.exts.count e) tr := by
      generalize tr.exts.count e = m
      induction m with
      | zero => rfl
      | succ m ih => rw [List.replicate_succ, List.filterMap_cons, hget, ih, List.replicate_succ]
    rw [hrep, chosen, List.filter_cons]
    by_cases hm : e ∈ tr.exts
    · have : tr.exts.contains e = true := by simpa using hm
      rw [if_pos this, findSome_replicate _ _ _ (by
        have := List.count_pos_iff.mpr hm; omega), List.findSome?_cons, List.findSome?_cons]
      cases tr.run n args with
      | some c => rfl
      | none => exact ih'
    · have : tr.exts.contains e = false := by simpa using hm
      rw [this, if_neg (by decide), List.count_eq_zero.mpr hm]
      exact ih'

/-! ### The cache -/

/-- What holds of a set reached by adding the translators `trs` and asking. -/
structure Wf (trs : List Translator) (s : Set') : Prop where
  trs_eq : s.translators = trs
  index : ∀ e, s.index e = indexOf trs 0 e

/-- All entries of the cache are right. -/
def Good (trs : List Translator) (c : List (Ty × Option Count)) : Prop :=
  ∀ t r, (t, r) ∈ c → r = regs trs t

theorem lookup_good {trs : List Translator} {c : List (Ty × Option Count)} (hc : Good trs c)
    {t : Ty} {r : Option Count} (h : lookup c t = some r) : r = regs trs t := by
  induction c with
  | nil => cases h
  | cons p c ih =>
    obtain ⟨u, r'⟩ := p
    rw [lookup] at h
    split at h
    · rename_i hs
      have := (same_iff _ _).mp hs
      cases h
      subst this
      exact hc _ _ List.mem_cons_self
    · exact ih (fun t r hm => hc t r (List.mem_cons_of_mem _ hm)) h

theorem Good.cons {trs : List Translator} {c : List (Ty × Option Count)} (hc : Good trs c)
    {t : Ty} {r : Option Count} (h : r = regs trs t) : Good trs ((t, r) :: c) := by
  intro u r' hm
  cases hm with
  | head => exact h
  | tail _ hm => exact hc _ _ hm

theorem forExt_answer {trs : List Translator} {s : Set'} (hs : Wf trs s) (e n : Nat)
    (args : List (Option Count)) :
    firstAnswer n args (s.forExt e) = chosen trs e n args := by
  rw [firstAnswer_eq, Set'.forExt, hs.index, hs.trs_eq]
  exact indexOf_chosen [] trs e n args

theorem regs_ext (trs : List Translator) (e n : Nat) (args : List Ty) :
    regs trs (.ext e n args) = if e = floatExt ∨ e = rotationExt then some ⟨0, 0, 1⟩
      else (chosen trs e n (regsArgs trs args)).filter (fun c => c.params = 0) := by
  rw [regs]

mutual
theorem query_ok {trs : List Translator} {s : Set'} (hs : Wf trs s) :
    ∀ (t : Ty) (c : List (Ty × Option Count)), okTy t = true → Good trs c →
      (query s t c).1 = regs trs t ∧ Good trs (query s t c).2
  | .ext e n args, c, hok, hc => by
    rw [query]
    cases hl : lookup c (.ext e n args) with
    | some r => exact ⟨lookup_good hc hl, hc⟩
    | none =>
      dsimp only
      have hr := regs_ext trs e n args
      by_cases hp : e = floatExt ∨ e = rotationExt
      · rw [if_pos hp] at hr ⊢
        exact ⟨hr.symm, hc⟩
      · rw [if_neg hp] at hr ⊢
        have ih := queryArgs_ok hs args c (by simpa [okTy] using hok) hc
        generalize queryArgs s args c = z at ih ⊢
        obtain ⟨rs, c'⟩ := z
        dsimp only at ih ⊢
        have hrr : noParams (firstAnswer n rs (s.forExt e)) = regs trs (.ext e n args) := by
          rw [hr, noParams_eq, forExt_answer hs, ih.1]
        exact ⟨hrr, ih.2.cons hrr⟩
  | .sum vs, c, hok, hc => by
    rw [query]
    cases hl : lookup c (.sum vs) with
    | some r => exact ⟨lookup_good hc hl, hc⟩
    | none =>
      dsimp only
      have ih := queryTuple_ok hs vs c (by simpa [okTy] using hok) hc
      cases vs with
      | nil => rw [if_pos (show ([] : List Ty).isEmpty = true from rfl)]; exact ⟨by rw [regs], hc⟩
      | cons v vs =>
        rw [if_neg (by simp)]
        by_cases hb : (Ty.sum (v :: vs)).same boolT = true
        · rw [if_pos hb]
          have := (same_iff _ _).mp hb
          rw [this]
          exact ⟨by rw [boolT, regs], hc⟩
        · rw [if_neg hb]
          generalize queryTuple s (v :: vs) c = z at ih ⊢
          obtain ⟨r, c'⟩ := z
          dsimp only at ih ⊢
          have hrr : noParams r = regs trs (.sum (v :: vs)) := by
            have hb' : Ty.sum (v :: vs) ≠ boolT := fun h => hb ((same_iff _ _).mpr h)
            rw [okTy] at hok
            cases v with
            | row ts =>
              cases vs with
              | nil =>
                rw [noParams_eq, (ih.1 ts rfl).1, regs]
              | cons w vs =>
                have : r = none := ih.2.1 (by simp)
                rw [this, noParams]
                cases w with
                | row us =>
                  cases ts with
                  | cons _ _ => rw [regs] <;> simp
                  | nil =>
                    cases us with
                    | cons _ _ => rw [regs] <;> simp
                    | nil =>
                      cases vs with
                      | nil => exact absurd rfl hb'
                      | cons _ _ => rw [regs] <;> simp
                | _ => simp [okRows] at hok
            | _ => simp [okRows] at hok
          exact ⟨hrr, ih.2.2.cons hrr⟩
  | .row ts, c, hok, hc => by simp [okTy] at hok
  | .other n, c, hok, hc => by
    rw [query]
    cases hl : lookup c (.other n) with
    | some r => exact ⟨lookup_good hc hl, hc⟩
    | none =>
      have : (none : Option Count) = regs trs (.other n) := by rw [regs]
      exact ⟨this, hc.cons this⟩
theorem queryTuple_ok {trs : List Translator} {s : Set'} (hs : Wf trs s) :
    ∀ (vs : List Ty) (c : List (Ty × Option Count)), okRows vs = true → Good trs c →
      (∀ ts, vs = [.row ts] → (queryTuple s vs c).1 = regsAll trs ts ∧ True) ∧
      (vs.length ≠ 1 → (queryTuple s vs c).1 = none) ∧ Good trs (queryTuple s vs c).2
  | [], c, _, hc => by
    refine ⟨?_, ?_, ?_⟩
    · intro ts h; cases h
    · intro _; rw [queryTuple]; simp
    · rw [queryTuple]; · exact hc
      · simp
  | [.row ts], c, hok, hc => by
    have ih := querySum_ok hs ts c (by simpa [okRows] using hok) hc
    refine ⟨?_, ?_, ?_⟩
    · intro us h
      cases h
      rw [queryTuple, query]
      exact ⟨ih.1, trivial⟩
    · intro h; exact absurd rfl h
    · rw [queryTuple, query]; exact ih.2
  | [.ext _ _ _], c, hok, hc => by simp [okRows] at hok
  | [.sum _], c, hok, hc => by simp [okRows] at hok
  | [.other _], c, hok, hc => by simp [okRows] at hok
  | _ :: _ :: _, c, _, hc => by
    refine ⟨?_, ?_, ?_⟩
    · intro ts h; cases h
    · intro _; rw [queryTuple]; simp
    · rw [queryTuple]; · exact hc
      · simp
theorem querySum_ok {trs : List Translator} {s : Set'} (hs : Wf trs s) :
    ∀ (ts : List Ty) (c : List (Ty × Option Count)), okTys ts = true → Good trs c →
      (querySum s ts c).1 = regsAll trs ts ∧ Good trs (querySum s ts c).2
  | [], c, _, hc => by rw [querySum, regsAll]; exact ⟨rfl, hc⟩
  | t :: ts, c, hok, hc => by
    rw [okTys, Bool.and_eq_true] at hok
    have ih := query_ok hs t c hok.1 hc
    rw [querySum, regsAll]
    generalize query s t c = z at ih ⊢
    obtain ⟨r, c'⟩ := z
    dsimp only at ih
    have ih2 := querySum_ok hs ts c' hok.2 ih.2
    cases r with
    | none => rw [← ih.1]; exact ⟨rfl, ih.2⟩
    | some a =>
      dsimp only
      rw [← ih.1, ← ih2.1]
      generalize querySum s ts c' = z at ih2 ⊢
      obtain ⟨r, c''⟩ := z
      cases r with
      | none => exact ⟨rfl, ih2.2⟩
      | some b => exact ⟨rfl, ih2.2⟩
theorem queryArgs_ok {trs : List Translator} {s : Set'} (hs : Wf trs s) :
    ∀ (ts : List Ty) (c : List (Ty × Option Count)), okTys ts = true → Good trs c →
      (queryArgs s ts c).1 = regsArgs trs ts ∧ Good trs (queryArgs s ts c).2
  | [], c, _, hc => by rw [queryArgs, regsArgs]; exact ⟨rfl, hc⟩
  | t :: ts, c, hok, hc => by
    rw [okTys, Bool.and_eq_true] at hok
    have ih := query_ok hs t c hok.1 hc
    rw [queryArgs, regsArgs]
    generalize query s t c = z at ih ⊢
    obtain ⟨r, c'⟩ := z
    dsimp only at ih ⊢
    have ih2 := queryArgs_ok hs ts c' hok.2 ih.2
    generalize queryArgs s ts c' = z at ih2 ⊢
    obtain ⟨rs, c''⟩ := z
    dsimp only at ih2 ⊢
    exact ⟨by rw [proper_eq, ih.1, ih2.1], ih2.2⟩
end

theorem wf_empty : Wf [] Set'.empty := ⟨rfl, fun _ => rfl⟩

theorem wf_add {trs : List Translator} {s : Set'} (h : Wf trs s) (tr : Translator) :
    Wf (trs ++ [tr]) (s.add tr) := by
  refine ⟨by rw [Set'.add, h.trs_eq], ?_⟩
  intro e
  show (tr.exts.foldl (pushIndex s.translators.length) s.index) e = _
  rw [foldl_pushIndex, indexOf_append, h.index, h.trs_eq, Nat.zero_add]

theorem answers_eq {trs : List Translator} {s : Set'} (hs : Wf trs s) (hc : Good trs s.cache)
    (as : List Act) (hok : Asks as) : answers s as = expected trs as := by
  induction as generalizing trs s with
  | nil => rfl
  | cons a as ih =>
    have hok' : Asks as := fun t h => hok t (List.mem_cons_of_mem _ h)
    cases a with
    | add tr =>
      rw [answers, expected]
      exact ih (wf_add hs tr) (fun t r h => by cases h) hok'
    | ask t =>
      have hq := query_ok hs t s.cache (hok t List.mem_cons_self) hc
      rw [answers, expected]
      have h1 : (s.typeToPytket t).1 = proper (regs trs t) := by
        rw [proper_eq, ← hq.1]; rfl
      rw [h1]
      congr 1
      exact ih ⟨hs.trs_eq, hs.index⟩ hq.2 hok'

/-! ### The translators of tket -/

theorem chosen_prelude (n : Nat) (args : List (Option Count)) :
    chosen qsystemTranslators preludeExt n args = if n = 0 then some ⟨1, 0, 0⟩ else none := by
  by_cases h : n = 0 <;>
    simp [chosen, qsystemTranslators, preludeTranslator, boolTranslator, floatTranslator,
      rotationTranslator, futureTranslator, preludeExt, boolExt, floatExt, rotationExt,
      futuresExt, h, List.filter]

theorem chosen_bool (n : Nat) (args : List (Option Count)) :
    chosen qsystemTranslators boolExt n args = if n = 0 then some ⟨0, 1, 0⟩ else none := by
  by_cases h : n = 0 <;>
    simp [chosen, qsystemTranslators, preludeTranslator, boolTranslator, floatTranslator,
      rotationTranslator, futureTranslator, preludeExt, boolExt, floatExt, rotationExt,
      futuresExt, h, List.filter]

theorem chosen_future (n : Nat) (args : List (Option Count)) :
    chosen qsystemTranslators futuresExt n args = if n = 0 then args.head?.join else none := by
  by_cases h : n = 0
  · simp [chosen, qsystemTranslators, preludeTranslator, boolTranslator, floatTranslator,
      rotationTranslator, futureTranslator, preludeExt, boolExt, floatExt, rotationExt,
      futuresExt, h, List.filter]
  · simp [chosen, qsystemTranslators, preludeTranslator, boolTranslator, floatTranslator,
      rotationTranslator, futureTranslator, preludeExt, boolExt, floatExt, rotationExt,
      futuresExt, h, List.filter, List.findSome?]

theorem chosen_other {e : Nat} (h0 : ¬(e = floatExt ∨ e = rotationExt)) (h1 : e ≠ preludeExt)
    (h2 : e ≠ boolExt) (h3 : e ≠ futuresExt) (n : Nat) (args : List (Option Count)) :
    chosen qsystemTranslators e n args = none := by
  simp only [floatExt, rotationExt, preludeExt, boolExt, futuresExt, not_or] at h0 h1 h2 h3
  simp [chosen, qsystemTranslators, preludeTranslator, boolTranslator, floatTranslator,
      rotationTranslator, futureTranslator, preludeExt, boolExt, floatExt, rotationExt,
      futuresExt, h0, h1, h2, h3, List.filter]

theorem tally_append (a b : List Reg) : tally (a ++ b) = (tally a).add (tally b) := by
  simp [tally, Count.add, List.count_append]

theorem tally_ne {rs : List Reg} (h : rs ≠ []) : tally rs ≠ ⟨0, 0, 0⟩ := by
  cases rs with
  | nil => exact absurd rfl h
  | cons r rs => cases r <;> simp [tally]

theorem tally_nil : tally [] = ⟨0, 0, 0⟩ := rfl

mutual
theorem leaves_regs : ∀ {t : Ty} {rs : List Reg}, Leaves t rs →
    regs qsystemTranslators t = some (tally rs)
  | _, _, .qubit args => by
    rw [regs_ext, if_neg (by decide), chosen_prelude, if_pos rfl]; rfl
  | _, _, .native => by rw [regs]; rfl
  | _, _, .tket args => by
    rw [regs_ext, if_neg (by decide), chosen_bool, if_pos rfl]; rfl
  | _, _, .never => by rw [regs]; rfl
  | _, _, .tuple h => by
    rw [regs, leavesAll_regs h]; rfl
  | _, _, .future args h hne => by
    rw [regs_ext, if_neg (by decide), chosen_future, if_pos rfl, regsArgs, leaves_regs h]
    have := tally_ne hne
    simp [proper, Option.filter, this]
    simp [tally]
theorem leavesAll_regs : ∀ {ts : List Ty} {rs : List Reg}, LeavesAll ts rs →
    regsAll qsystemTranslators ts = some (tally rs)
  | _, _, .nil => by rw [regsAll]; rfl
  | _, _, .cons h h' => by
    rw [regsAll, leaves_regs h, leavesAll_regs h', tally_append]; rfl
end

/-- A type of the float or rotation extension. -/
def isParam : Ty → Prop
  | .ext e _ _ => e = floatExt ∨ e = rotationExt
  | _ => False

theorem filter_params {o : Option Count} {c : Count}
    (h : o.filter (fun c => c.params = 0) = some c) : o = some c ∧ c.params = 0 := by
  rw [Option.filter_eq_some_iff] at h
  exact ⟨h.1, by simpa using h.2⟩

mutual
theorem regs_leaves : ∀ (t : Ty) (c : Count), regs qsystemTranslators t = some c →
    (isParam t ∧ c = ⟨0, 0, 1⟩) ∨ ∃ rs, Leaves t rs ∧ c = tally rs
  | .ext e n args, c, h => by
    rw [regs_ext] at h
    by_cases hp : e = floatExt ∨ e = rotationExt
    · rw [if_pos hp] at h
      cases h
      exact Or.inl ⟨hp, rfl⟩
    · rw [if_neg hp] at h
      replace h := filter_params h
      have hc := h.2
      replace h := h.1
      right
      by_cases h1 : e = preludeExt
      · subst h1
        rw [chosen_prelude] at h
        split at h
        · rename_i hn; subst hn; cases h
          exact ⟨_, .qubit args, rfl⟩
        · cases h
      · by_cases h2 : e = boolExt
        · subst h2
          rw [chosen_bool] at h
          split at h
          · rename_i hn; subst hn; cases h
            exact ⟨_, .tket args, rfl⟩
          · cases h
        · by_cases h3 : e = futuresExt
          · subst h3
            rw [chosen_future] at h
            split at h
            · rename_i hn
              subst hn
              cases args with
              | nil => rw [regsArgs] at h; cases h
              | cons t args =>
                rw [regsArgs] at h
                have h : proper (regs qsystemTranslators t) = some c := h
                rw [proper, Option.filter_eq_some_iff] at h
                cases regs_leaves t c h.1 with
                | inl hl => rw [hl.2] at hc; cases hc
                | inr hr =>
                  obtain ⟨rs, hl, rfl⟩ := hr
                  refine ⟨rs, .future args hl ?_, rfl⟩
                  intro hn
                  subst hn
                  have := h.2
                  simp [tally_nil] at this
            · cases h
          · rw [chosen_other hp h1 h2 h3] at h
            cases h
  | .sum [], c, h => by
    rw [regs] at h; cases h
    exact Or.inr ⟨[], .never, rfl⟩
  | .sum [.row ts], c, h => by
    rw [regs] at h
    obtain ⟨h, hc⟩ := filter_params h
    obtain ⟨rs, hl, rfl⟩ := regsAll_leaves ts c h hc
    exact Or.inr ⟨rs, .tuple hl, rfl⟩
  | .sum (.row [] :: .row [] :: []), c, h => by
    rw [regs] at h; cases h
    exact Or.inr ⟨_, .native, rfl⟩
  | .sum (.row (_ :: _) :: _ :: _), c, h => by
    rw [regs] at h
    · cases h
    all_goals simp
  | .sum (.row [] :: .row (_ :: _) :: _), c, h => by
    rw [regs] at h
    · cases h
    all_goals simp
  | .sum (.row [] :: .row [] :: _ :: _), c, h => by
    rw [regs] at h
    · cases h
    all_goals simp
  | .sum (.row [] :: .ext _ _ _ :: _), c, h => by
    rw [regs] at h
    · cases h
    all_goals simp
  | .sum (.row [] :: .sum _ :: _), c, h => by
    rw [regs] at h
    · cases h
    all_goals simp
  | .sum (.row [] :: .other _ :: _), c, h => by
    rw [regs] at h
    · cases h
    all_goals simp
  | .sum (.ext _ _ _ :: _), c, h => by
    rw [regs] at h
    · cases h
    all_goals simp
  | .sum (.sum _ :: _), c, h => by
    rw [regs] at h
    · cases h
    all_goals simp
  | .sum (.other _ :: _), c, h => by
    rw [regs] at h
    · cases h
    all_goals simp
  | .row ts, c, h => by rw [regs] at h; cases h
  | .other n, c, h => by rw [regs] at h; cases h
theorem regsAll_leaves : ∀ (ts : List Ty) (c : Count), regsAll qsystemTranslators ts = some c →
    c.params = 0 → ∃ rs, LeavesAll ts rs ∧ c = tally rs
  | [], c, h, _ => by
    rw [regsAll] at h; cases h
    exact ⟨[], .nil, rfl⟩
  | t :: ts, c, h, hc => by
    rw [regsAll] at h
    cases h1 : regs qsystemTranslators t with
    | none => rw [h1] at h; cases h
    | some a =>
      cases h2 : regsAll qsystemTranslators ts with
      | none => rw [h1, h2] at h; cases h
      | some b =>
        rw [h1, h2] at h
        have h : a.add b = c := by simpa using h
        subst h
        have hc : a.params + b.params = 0 := hc
        cases regs_leaves t a h1 with
        | inl hl => rw [hl.2] at hc; simp at hc
        | inr hr =>
          obtain ⟨rs, hl, rfl⟩ := hr
          obtain ⟨rs', hl', rfl⟩ := regsAll_leaves ts b h2 (by omega)
          exact ⟨rs ++ rs', .cons hl hl', (tally_append _ _).symm⟩
end

/-! ### Values -/

mutual
theorem value_counts : ∀ {t : Ty} {v : Val}, HasTy t v → ∀ {rs : List Reg}, Leaves t rs →
    v.qubits.length = rs.count .q ∧ v.bits.length = rs.count .b
  | _, _, .qubit args k, _, h => by cases h; exact ⟨rfl, rfl⟩
  | _, _, .native b, _, h => by cases h; exact ⟨rfl, rfl⟩
  | _, _, .tket args b, _, h => by cases h; exact ⟨rfl, rfl⟩
  | _, _, .tuple hv, _, h => by
    cases h with
    | tuple h => rw [Val.qubits, Val.bits]; exact values_counts hv h
  | _, _, .future args hv, _, h => by
    cases h with
    | future _ h _ => rw [Val.qubits, Val.bits]; exact value_counts hv h
theorem values_counts : ∀ {ts : List Ty} {vs : List Val}, HasTyAll ts vs →
    ∀ {rs : List Reg}, LeavesAll ts rs →
    (qubitsAll vs).length = rs.count .q ∧ (bitsAll vs).length = rs.count .b
  | _, _, .nil, _, h => by cases h; exact ⟨rfl, rfl⟩
  | _, _, .cons hv hvs, _, h => by
    cases h with
    | cons h h' =>
      have h1 := value_counts hv h
      have h2 := values_counts hvs h'
      rw [qubitsAll, bitsAll, List.length_append, List.length_append, List.count_append,
        List.count_append, h1.1, h1.2, h2.1, h2.2]
      exact ⟨rfl, rfl⟩
end

theorem append_split {α : Type} {l : List α} {a b : Nat} (h : l.length = a + b) :
    ∃ x y, l = x ++ y ∧ x.length = a ∧ y.length = b :=
  ⟨l.take a, l.drop a, (List.take_append_drop a l).symm, by rw [List.length_take]; omega,
    by rw [List.length_drop]; omega⟩

theorem length_one {α : Type} {l : List α} (h : l.length = 1) : ∃ a, l = [a] :=
  List.length_eq_one_iff.mp h

mutual
theorem value_exists : ∀ {t : Ty} {rs : List Reg}, Leaves t rs → noNever t = true →
    ∀ (qs : List Nat) (bs : List Bool), qs.length = rs.count .q → bs.length = rs.count .b →
      ∃ v, HasTy t v ∧ v.qubits = qs ∧ v.bits = bs
  | _, _, .qubit args, _, qs, bs, hq, hb => by
    obtain ⟨k, rfl⟩ := length_one hq
    have : bs = [] := List.length_eq_zero_iff.mp hb
    subst this
    exact ⟨_, .qubit args k, rfl, rfl⟩
  | _, _, .native, _, qs, bs, hq, hb => by
    obtain ⟨b, rfl⟩ := length_one hb
    have : qs = [] := List.length_eq_zero_iff.mp hq
    subst this
    exact ⟨_, .native b, rfl, rfl⟩
  | _, _, .tket args, _, qs, bs, hq, hb => by
    obtain ⟨b, rfl⟩ := length_one hb
    have : qs = [] := List.length_eq_zero_iff.mp hq
    subst this
    exact ⟨_, .tket args b, rfl, rfl⟩
  | _, _, .never, hn, _, _, _, _ => by simp [noNever] at hn
  | _, _, .tuple h, hn, qs, bs, hq, hb => by
    obtain ⟨vs, h1, h2, h3⟩ := values_exist h (by simpa [noNever, noNevers] using hn) qs bs hq hb
    exact ⟨_, .tuple h1, by rw [Val.qubits]; exact h2, by rw [Val.bits]; exact h3⟩
  | _, _, .future args h _, hn, qs, bs, hq, hb => by
    obtain ⟨v, h1, h2, h3⟩ := value_exists h
      (by rw [noNever, noNevers, Bool.and_eq_true] at hn; exact hn.1) qs bs hq hb
    exact ⟨_, .future args h1, by rw [Val.qubits]; exact h2, by rw [Val.bits]; exact h3⟩
theorem values_exist : ∀ {ts : List Ty} {rs : List Reg}, LeavesAll ts rs → noNevers ts = true →
    ∀ (qs : List Nat) (bs : List Bool), qs.length = rs.count .q → bs.length = rs.count .b →
      ∃ vs, HasTyAll ts vs ∧ qubitsAll vs = qs ∧ bitsAll vs = bs
  | _, _, .nil, _, qs, bs, hq, hb => by
    have : bs = [] := List.length_eq_zero_iff.mp hb
    subst this
    have : qs = [] := List.length_eq_zero_iff.mp hq
    subst this
    exact ⟨[], .nil, rfl, rfl⟩
  | _, _, .cons h h', hn, qs, bs, hq, hb => by
    rw [noNevers, Bool.and_eq_true] at hn
    rw [List.count_append] at hq hb
    obtain ⟨q1, q2, rfl, hq1, hq2⟩ := append_split hq
    obtain ⟨b1, b2, rfl, hb1, hb2⟩ := append_split hb
    obtain ⟨v, k1, k2, k3⟩ := value_exists h hn.1 q1 b1 hq1 hb1
    obtain ⟨vs, l1, l2, l3⟩ := values_exist h' hn.2 q2 b2 hq2 hb2
    exact ⟨v :: vs, .cons k1 l1, by rw [qubitsAll, k2, l2], by rw [bitsAll, k3, l3]⟩
end

mutual
theorem value_unique : ∀ {t : Ty} {rs : List Reg}, Leaves t rs →
    ∀ {v w : Val}, HasTy t v → HasTy t w → v.qubits = w.qubits → v.bits = w.bits → v = w
  | _, _, .qubit args, _, _, h, h', hq, hb => by
    cases h; cases h'; simpa [Val.qubits] using hq
  | _, _, .native, _, _, h, h', hq, hb => by
    cases h; cases h'; simpa [Val.bits] using hb
  | _, _, .tket args, _, _, h, h', hq, hb => by
    cases h; cases h'; simpa [Val.bits] using hb
  | _, _, .never, _, _, h, h', hq, hb => by cases h
  | _, _, .tuple hl, _, _, h, h', hq, hb => by
    cases h with
    | tuple h =>
      cases h' with
      | tuple h' =>
        rw [Val.qubits, Val.qubits] at hq
        rw [Val.bits, Val.bits] at hb
        rw [values_unique hl h h' hq hb]
  | _, _, .future args hl _, _, _, h, h', hq, hb => by
    cases h with
    | future _ h =>
      cases h' with
      | future _ h' =>
        rw [Val.qubits, Val.qubits] at hq
        rw [Val.bits, Val.bits] at hb
        rw [value_unique hl h h' hq hb]
theorem values_unique : ∀ {ts : List Ty} {rs : List Reg}, LeavesAll ts rs →
    ∀ {vs ws : List Val}, HasTyAll ts vs → HasTyAll ts ws → qubitsAll vs = qubitsAll ws →
      bitsAll vs = bitsAll ws → vs = ws
  | _, _, .nil, _, _, h, h', _, _ => by cases h; cases h'; rfl
  | _, _, .cons hl hl', _, _, h, h', hq, hb => by
    cases h with
    | cons h1 h2 =>
      cases h' with
      | cons k1 k2 =>
        rw [qubitsAll, qubitsAll] at hq
        rw [bitsAll, bitsAll] at hb
        have c1 := value_counts h1 hl
        have c2 := value_counts k1 hl
        have eq := List.append_inj hq (by rw [c1.1, c2.1])
        have eb := List.append_inj hb (by rw [c1.2, c2.2])
        rw [value_unique hl h1 k1 eq.1 eb.1, values_unique hl' h2 k2 eq.2 eb.2]
end

end Verif.TypeTranslate
