import Verif.Model.DropsSpec

/-! # Lemmas on the lowering of drops -/

namespace Verif.Drops

variable {W L : Type}

theorem droppable_alt {a b : Ty} :
    (Ty.alt a b).Droppable ↔ a.Droppable ∧ b.Droppable :=
  ⟨fun h => ⟨fun l hl => h l (.row hl), fun l hl => h l (.rest hl)⟩, fun h l hl => by
    cases hl with
    | row hl => exact h.1 l hl
    | rest hl => exact h.2 l hl⟩

theorem droppable_cell {a b : Ty} :
    (Ty.cell a b).Droppable ↔ a.Droppable ∧ b.Droppable :=
  ⟨fun h => ⟨fun l hl => h l (.head hl), fun l hl => h l (.tail hl)⟩, fun h l hl => by
    cases hl with
    | head hl => exact h.1 l hl
    | tail hl => exact h.2 l hl⟩

theorem droppable_arr {n : Nat} {t : Ty} : (Ty.arr n t).Droppable ↔ t.Droppable :=
  ⟨fun h l hl => h l (.elem hl), fun h l hl => by
    cases hl with
    | elem hl => exact h l hl⟩

theorem copyable_droppable {t : Ty} (h : t.copyable = true) : t.Droppable := by
  induction t with
  | leaf l =>
    intro m hm
    cases hm
    exact .inl h
  | void => exact fun l hl => nomatch hl
  | alt a b iha ihb =>
    simp only [Ty.copyable, Bool.and_eq_true] at h
    exact droppable_alt.mpr ⟨iha h.1, ihb h.2⟩
  | unit => exact fun l hl => nomatch hl
  | cell a b iha ihb =>
    simp only [Ty.copyable, Bool.and_eq_true] at h
    exact droppable_cell.mpr ⟨iha h.1, ihb h.2⟩
  | arr n t _ => simp [Ty.copyable] at h

theorem discard_isSome {t : Ty} : (discard t).isSome = true ↔ t.Droppable := by
  induction t with
  | leaf l =>
    constructor
    · intro h m hm
      cases hm
      unfold discard at h
      split at h
      · exact .inl ‹_›
      · split at h
        · exact .inr ‹_›
        · simp at h
    · intro h
      have := h l .leaf
      unfold discard
      split
      · rfl
      · split
        · rfl
        · rcases this with h | h <;> contradiction
  | void => exact ⟨fun _ l hl => (nomatch hl), fun _ => rfl⟩
  | alt a b iha ihb =>
    rw [droppable_alt]
    unfold discard
    split
    · rename_i hc
      rw [Bool.and_eq_true] at hc
      exact ⟨fun _ => ⟨copyable_droppable hc.1, copyable_droppable hc.2⟩, fun _ => rfl⟩
    · rw [← iha, ← ihb]
      cases discard a <;> cases discard b <;> simp
  | unit => exact ⟨fun _ l hl => (nomatch hl), fun _ => rfl⟩
  | cell a b iha ihb =>
    rw [droppable_cell]
    unfold discard
    split
    · rename_i hc
      rw [Bool.and_eq_true] at hc
      exact ⟨fun _ => ⟨copyable_droppable hc.1, copyable_droppable hc.2⟩, fun _ => rfl⟩
    · rw [← iha, ← ihb]
      cases discard a <;> cases discard b <;> simp
  | arr n t ih =>
    rw [droppable_arr, ← ih]
    conv => lhs; unfold discard
    simp

/-- Values of copyable types hold no futures. -/
theorem count_copyable {t : Ty} (h : t.copyable = true) :
    ∀ {v : Val}, t.holds v = true → ∀ i, v.count i = 0 := by
  induction t with
  | leaf l =>
    intro v hv i
    cases l <;> cases v <;> simp [Ty.holds, Leaf.holds, Leaf.copyable, Ty.copyable, Val.count] at *
  | void => intro v hv; simp [Ty.holds] at hv
  | alt a b iha ihb =>
    simp only [Ty.copyable, Bool.and_eq_true] at h
    intro v hv i
    cases v <;> simp only [Ty.holds, Bool.false_eq_true] at hv
    · exact iha h.1 hv i
    · exact ihb h.2 hv i
  | unit =>
    intro v hv i
    cases v <;> simp [Ty.holds, Val.count] at *
  | cell a b iha ihb =>
    simp only [Ty.copyable, Bool.and_eq_true] at h
    intro v hv i
    cases v <;> simp only [Ty.holds, Bool.false_eq_true, Bool.and_eq_true] at hv
    simp [Val.count, iha h.1 hv.1 i, ihb h.2 hv.2 i]
  | arr n t _ => simp [Ty.copyable] at h

theorem forEach_count {op : Val → Heap → Option Heap} {p : Val → Bool}
    (hop : ∀ v H, p v = true → op v H = some fun h => H h + v.count h) (n : Nat) :
    ∀ (v : Val) (H : Heap), holdsAll p n v = true →
      forEach op n v H = some fun h => H h + v.count h := by
  induction n with
  | zero =>
    intro v H hv
    cases v <;> simp [holdsAll, forEach, Val.count] at *
  | succ n ih =>
    intro v H hv
    cases v <;> simp only [holdsAll, Bool.false_eq_true, Bool.and_eq_true] at hv
    simp only [forEach, hop _ H hv.1, Option.bind_some, ih _ _ hv.2, Val.count]
    congr 1
    funext h
    omega

theorem discard_run {t : Ty} : ∀ {c : Code}, discard t = some c → ∀ {v : Val} {H : Heap},
    t.holds v = true → c.run v H = some fun h => H h + v.count h := by
  have nothing : ∀ {t : Ty} {v : Val} {H : Heap}, t.copyable = true → t.holds v = true →
      Code.nothing.run v H = some fun h => H h + v.count h := by
    intro t v H hc hv
    simp [Code.run, count_copyable hc hv]
  induction t with
  | leaf l =>
    intro c hc v H hv
    unfold discard at hc
    split at hc
    · cases hc
      exact nothing (t := .leaf l) ‹_› hv
    · split at hc
      · rename_i hl
        subst hl
        cases hc
        cases v with
        | fut i =>
          simp only [Code.run, Val.count, Option.some.injEq]
          funext h
          simp only [Heap.use, eq_comm (a := i)]
          split <;> rfl
        | _ => simp [Ty.holds, Leaf.holds] at hv
      · cases hc
  | void => intro c _ v H hv; simp [Ty.holds] at hv
  | alt a b iha ihb =>
    intro c hc v H hv
    unfold discard at hc
    split at hc
    · cases hc
      exact nothing (t := .alt a b) ‹_› hv
    · split at hc
      · rename_i ha hb
        cases hc
        cases v <;> simp only [Ty.holds, Bool.false_eq_true] at hv
        · exact iha ha (H := H) hv
        · exact ihb hb (H := H) hv
      · cases hc
  | unit =>
    intro c hc v H hv
    cases hc
    exact nothing (t := .unit) rfl hv
  | cell a b iha ihb =>
    intro c hc v H hv
    unfold discard at hc
    split at hc
    · cases hc
      exact nothing (t := .cell a b) ‹_› hv
    · split at hc
      · rename_i ha hb
        cases hc
        cases v <;> simp only [Ty.holds, Bool.false_eq_true, Bool.and_eq_true] at hv
        simp only [Code.run, iha ha hv.1, Option.bind_some, ihb hb hv.2, Val.count]
        congr 1
        funext h
        omega
      · cases hc
  | arr n t ih =>
    intro c hc v H hv
    unfold discard at hc
    obtain ⟨c', h', rfl⟩ := Option.map_eq_some_iff.mp hc
    exact forEach_count (p := t.holds) (fun v H hv => ih h' hv) n v H hv

theorem lower_isSome {b : Body L} :
    (lower b).isSome = true ↔ ∀ t, b.Drops t → t.Droppable := by
  induction b with
  | ret o => exact ⟨fun _ t ht => (nomatch ht), fun _ => rfl⟩
  | op l i o k ih =>
    simp only [lower, Option.isSome_map, ih]
    exact ⟨fun h t ht => by cases ht with | op ht => exact h t ht, fun h t ht => h t (.op ht)⟩
  | drop u x k ih =>
    have : (lower (.drop u x k)).isSome = true ↔
        (discard u).isSome = true ∧ (lower k).isSome = true := by
      conv => lhs; unfold lower
      cases discard u <;> cases lower k <;> simp
    rw [this, ih, discard_isSome]
    constructor
    · rintro ⟨h1, h2⟩ t ht
      cases ht with
      | here => exact h1
      | drop ht => exact h2 t ht
    · exact fun h => ⟨h u .here, fun t ht => h t (.drop ht)⟩
  | discard n u x k ih =>
    simp only [lower, Option.isSome_map, ih]
    exact ⟨fun h t ht => by cases ht with | discard ht => exact h t ht,
      fun h t ht => h t (.discard ht)⟩
  | dfg c x k ih =>
    simp only [lower, Option.isSome_map, ih]
    exact ⟨fun h t ht => by cases ht with | dfg ht => exact h t ht, fun h t ht => h t (.dfg ht)⟩
  | cond x y a b o k iha ihb ihk =>
    have : (lower (.cond x y a b o k)).isSome = true ↔
        (lower a).isSome = true ∧ (lower b).isSome = true ∧ (lower k).isSome = true := by
      conv => lhs; unfold lower
      cases lower a <;> cases lower b <;> cases lower k <;> simp
    rw [this, iha, ihb, ihk]
    constructor
    · rintro ⟨h1, h2, h3⟩ t ht
      cases ht with
      | left ht => exact h1 t ht
      | right ht => exact h2 t ht
      | cond ht => exact h3 t ht
    · exact fun h => ⟨fun t ht => h t (.left ht), fun t ht => h t (.right ht),
        fun t ht => h t (.cond ht)⟩
  | call f i o k ih =>
    simp only [lower, Option.isSome_map, ih]
    exact ⟨fun h t ht => by cases ht with | call ht => exact h t ht, fun h t ht => h t (.call ht)⟩

theorem hasDrop_iff {b : Body L} : b.hasDrop = true ↔ ∃ t, b.Drops t := by
  induction b with
  | ret o => exact ⟨fun h => (nomatch h), fun ⟨t, ht⟩ => (nomatch ht)⟩
  | op l i o k ih =>
    exact ih.trans ⟨fun ⟨t, h⟩ => ⟨t, .op h⟩, fun ⟨t, h⟩ => by cases h with | op h => exact ⟨t, h⟩⟩
  | drop u x k _ => exact ⟨fun _ => ⟨u, .here⟩, fun _ => rfl⟩
  | discard n u x k ih =>
    exact ih.trans ⟨fun ⟨t, h⟩ => ⟨t, .discard h⟩,
      fun ⟨t, h⟩ => by cases h with | discard h => exact ⟨t, h⟩⟩
  | dfg c x k ih =>
    exact ih.trans ⟨fun ⟨t, h⟩ => ⟨t, .dfg h⟩,
      fun ⟨t, h⟩ => by cases h with | dfg h => exact ⟨t, h⟩⟩
  | cond x y a b o k iha ihb ihk =>
    simp only [Body.hasDrop, Bool.or_eq_true, iha, ihb, ihk]
    constructor
    · rintro ((⟨t, h⟩ | ⟨t, h⟩) | ⟨t, h⟩)
      · exact ⟨t, .left h⟩
      · exact ⟨t, .right h⟩
      · exact ⟨t, .cond h⟩
    · rintro ⟨t, h⟩
      cases h with
      | left h => exact .inl (.inl ⟨t, h⟩)
      | right h => exact .inl (.inr ⟨t, h⟩)
      | cond h => exact .inr ⟨t, h⟩
  | call f i o k ih =>
    exact ih.trans ⟨fun ⟨t, h⟩ => ⟨t, .call h⟩,
      fun ⟨t, h⟩ => by cases h with | call h => exact ⟨t, h⟩⟩

/-- The relation between a region and its lowering, case by case. -/
theorem lower_noDrop {b : Body L} : ∀ {b' : Body L}, lower b = some b' → b'.hasDrop = false := by
  induction b with
  | ret o => intro b' h; cases h; rfl
  | op l i o k ih =>
    intro b' h
    obtain ⟨k', hk, rfl⟩ := Option.map_eq_some_iff.mp h
    simpa [Body.hasDrop] using ih hk
  | drop u x k ih =>
    intro b' h
    unfold lower at h
    split at h
    · rename_i hk
      cases h
      simpa [Body.hasDrop] using ih hk
    · cases h
  | discard n u x k ih =>
    intro b' h
    obtain ⟨k', hk, rfl⟩ := Option.map_eq_some_iff.mp h
    simpa [Body.hasDrop] using ih hk
  | dfg c x k ih =>
    intro b' h
    obtain ⟨k', hk, rfl⟩ := Option.map_eq_some_iff.mp h
    simpa [Body.hasDrop] using ih hk
  | cond x y a b o k iha ihb ihk =>
    intro b' h
    unfold lower at h
    split at h
    · rename_i ha hb hk
      cases h
      simp [Body.hasDrop, iha ha, ihb hb, ihk hk]
    · cases h
  | call f i o k ih =>
    intro b' h
    obtain ⟨k', hk, rfl⟩ := Option.map_eq_some_iff.mp h
    simpa [Body.hasDrop] using ih hk

theorem lower_unchanged {b : Body L} (h : b.hasDrop = false) : lower b = some b := by
  induction b with
  | ret o => rfl
  | op l i o k ih => simp [lower, ih h]
  | drop u x k _ => cases h
  | discard n u x k ih => simp [lower, ih h]
  | dfg c x k ih => simp [lower, ih h]
  | cond x y a b o k iha ihb ihk =>
    simp only [Body.hasDrop, Bool.or_eq_false_iff] at h
    simp [lower, iha h.1.1, ihb h.1.2, ihk h.2]
  | call f i o k ih => simp [lower, ih h]

theorem exec_same {M : Machine W L} {d : Ty → Val → Heap → Option Heap}
    {c c' : Nat → St W → List Val → Out (St W × List Val)}
    (hc : ∀ f st vs, c f st vs ≠ .stuck → c' f st vs = c f st vs) {b : Body L} :
    ∀ {b' : Body L}, lower b = some b' → ∀ (E : Env) (st : St W),
      exec M dropSpec c b E st ≠ .stuck → exec M d c' b' E st = exec M dropSpec c b E st := by
  induction b with
  | ret o => intro b' h E st _; cases h; rfl
  | op l i o k ih =>
    intro b' h E st hs
    obtain ⟨k', hk, rfl⟩ := Option.map_eq_some_iff.mp h
    unfold exec at hs ⊢
    cases hr : readAll E i with
    | none => simp [hr] at hs
    | some vs =>
      rw [hr] at hs
      dsimp only at hs ⊢
      cases hm : M.op l st vs with
      | ok r => rw [hm] at hs; exact ih hk _ _ hs
      | panic => rfl
      | fuel => rfl
      | stuck => rfl
  | drop u x k ih =>
    intro b' h E st hs
    unfold lower at h
    split at h
    · rename_i cd k' hcd hk
      cases h
      unfold exec at hs ⊢
      cases hE : E x with
      | none => simp [hE] at hs
      | some v =>
        simp only [hE, Option.bind_some, dropSpec] at hs ⊢
        by_cases hv : u.holds v = true
        · simp only [hv, if_true] at hs ⊢
          rw [discard_run hcd hv]
          exact ih hk _ _ hs
        · simp [hv] at hs
    · cases h
  | discard n u x k ih =>
    intro b' h E st hs
    obtain ⟨k', hk, rfl⟩ := Option.map_eq_some_iff.mp h
    unfold exec at hs ⊢
    cases hE : E x with
    | none => simp [hE] at hs
    | some v => rw [hE] at hs; exact ih hk _ _ hs
  | dfg cd x k ih =>
    intro b' h E st hs
    obtain ⟨k', hk, rfl⟩ := Option.map_eq_some_iff.mp h
    unfold exec at hs ⊢
    cases hE : (E x).bind fun v => cd.run v st.heap with
    | none => simp [hE] at hs
    | some H => rw [hE] at hs; exact ih hk _ _ hs
  | cond x y a b o k iha ihb ihk =>
    intro b' h E st hs
    unfold lower at h
    split at h
    · rename_i a' b' k' ha hb hk
      cases h
      unfold exec at hs ⊢
      split at hs
      · rename_i v hE
        have hx : exec M dropSpec c a (fun i => if i = y then some v else E i) st ≠ .stuck := by
          intro e; rw [e] at hs; exact hs rfl
        rw [iha ha _ _ hx]
        cases hr : exec M dropSpec c a (fun i => if i = y then some v else E i) st with
        | ok r => rw [hr] at hs; exact ihk hk _ _ hs
        | panic => rfl
        | fuel => rfl
        | stuck => rfl
      · rename_i v hE
        have hx : exec M dropSpec c b (fun i => if i = y then some v else E i) st ≠ .stuck := by
          intro e; rw [e] at hs; exact hs rfl
        rw [ihb hb _ _ hx]
        cases hr : exec M dropSpec c b (fun i => if i = y then some v else E i) st with
        | ok r => rw [hr] at hs; exact ihk hk _ _ hs
        | panic => rfl
        | fuel => rfl
        | stuck => rfl
      · exact absurd rfl hs
    · cases h
  | call f i o k ih =>
    intro b' h E st hs
    obtain ⟨k', hk, rfl⟩ := Option.map_eq_some_iff.mp h
    unfold exec at hs ⊢
    cases hr : readAll E i with
    | none => simp [hr] at hs
    | some vs =>
      rw [hr] at hs
      dsimp only at hs ⊢
      have hx : c f st vs ≠ .stuck := by
        intro e; rw [e] at hs; exact hs rfl
      rw [hc f st vs hx]
      cases hm : c f st vs with
      | ok r => rw [hm] at hs; exact ih hk _ _ hs
      | panic => rfl
      | fuel => rfl
      | stuck => rfl

theorem lowerFns_get {P Q : List (Fn L)} (h : lowerFns P = some Q) (f : Nat) :
    (P[f]? = none ∧ Q[f]? = none) ∨
      ∃ d b, P[f]? = some d ∧ lower d.body = some b ∧ Q[f]? = some ⟨d.ins, b⟩ := by
  induction P generalizing Q f with
  | nil => cases h; exact .inl ⟨rfl, rfl⟩
  | cons d P ih =>
    unfold lowerFns at h
    split at h
    · rename_i b gs hb hg
      cases h
      cases f with
      | zero => exact .inr ⟨d, b, rfl, hb, rfl⟩
      | succ f => simpa using ih hg f
    · cases h

theorem lowerFns_isSome {P : List (Fn L)} :
    (lowerFns P).isSome = true ↔ ∀ f ∈ P, ∀ t, f.body.Drops t → t.Droppable := by
  induction P with
  | nil => exact ⟨fun _ f hf => (nomatch hf), fun _ => rfl⟩
  | cons d P ih =>
    have : (lowerFns (d :: P)).isSome = true ↔
        (lower d.body).isSome = true ∧ (lowerFns P).isSome = true := by
      conv => lhs; unfold lowerFns
      cases lower d.body <;> cases lowerFns P <;> simp
    rw [this, ih, lower_isSome]
    simp

theorem run_same {M : Machine W L} {d : Ty → Val → Heap → Option Heap} {P Q : List (Fn L)}
    (h : lowerFns P = some Q) (n : Nat) : ∀ (f : Nat) (st : St W) (vs : List Val),
      run M dropSpec P n f st vs ≠ .stuck → run M d Q n f st vs = run M dropSpec P n f st vs := by
  induction n with
  | zero => intro f st vs _; rfl
  | succ n ih =>
    intro f st vs hs
    unfold run at hs ⊢
    rcases lowerFns_get h f with ⟨h1, h2⟩ | ⟨e, b, h1, h2, h3⟩
    · rw [h1] at hs; exact absurd rfl hs
    · rw [h1] at hs ⊢
      rw [h3]
      exact exec_same ih h2 _ _ hs

/-! ### Lazy booleans -/

theorem lazyTy_droppable {t : Ty} : (lazyTy t).Droppable ↔ t.Droppable := by
  induction t with
  | leaf l =>
    cases l with
    | tbool =>
      refine ⟨fun _ l hl => ?_, fun _ => discard_isSome.mp rfl⟩
      cases hl
      exact .inl rfl
    | _ => exact Iff.rfl
  | void => exact Iff.rfl
  | alt a b iha ihb => simp only [lazyTy, droppable_alt, iha, ihb]
  | unit => exact Iff.rfl
  | cell a b iha ihb => simp only [lazyTy, droppable_cell, iha, ihb]
  | arr n t ih => simp only [lazyTy, droppable_arr, ih]

theorem lazyTy_no_tbool {t : Ty} : ¬ (lazyTy t).Has .tbool := by
  induction t with
  | leaf l =>
    cases l with
    | tbool =>
      intro h
      cases h with
      | row h =>
        cases h with
        | head h => cases h
        | tail h => cases h
      | rest h =>
        cases h with
        | row h =>
          cases h with
          | head h => cases h
          | tail h => cases h
        | rest h => cases h
    | _ => intro h; cases h
  | void => intro h; cases h
  | alt a b iha ihb =>
    intro h
    cases h with
    | row h => exact iha h
    | rest h => exact ihb h
  | unit => intro h; cases h
  | cell a b iha ihb =>
    intro h
    cases h with
    | head h => exact iha h
    | tail h => exact ihb h
  | arr n t ih => intro h; cases h with | elem h => exact ih h

theorem lazyTy_same {t : Ty} (h : ¬ t.Has .tbool) : lazyTy t = t := by
  induction t with
  | leaf l =>
    cases l with
    | tbool => exact absurd .leaf h
    | _ => rfl
  | void => rfl
  | alt a b iha ihb =>
    rw [lazyTy, iha fun e => h (.row e), ihb fun e => h (.rest e)]
  | unit => rfl
  | cell a b iha ihb =>
    rw [lazyTy, iha fun e => h (.head e), ihb fun e => h (.tail e)]
  | arr n t ih => rw [lazyTy, ih fun e => h (.elem e)]

theorem lazyTy_values {t : Ty} :
    ∀ {v' : Val}, (lazyTy t).holds v' = true → ∃ v, t.holds v = true ∧ Late v v' := by
  have leaf : ∀ {l : Leaf} {v : Val}, l.holds v = true → Late v v := by
    intro l v h
    cases v with
    | data n => exact .data
    | fut h => exact .fut
    | lin q => exact .lin
    | _ => cases l <;> simp [Leaf.holds] at h
  induction t with
  | leaf l =>
    cases l with
    | tbool =>
      intro v' h
      refine ⟨.data 0, rfl, ?_⟩
      cases v' with
      | here v =>
        cases v with
        | cons v w =>
          cases v <;> cases w <;> simp [lazyTy, boolDest, Ty.holds, Leaf.holds] at h
          exact .known (by omega) _
        | _ => simp [lazyTy, boolDest, Ty.holds] at h
      | there v =>
        cases v with
        | here v =>
          cases v with
          | cons v w =>
            cases v <;> cases w <;> simp [lazyTy, boolDest, Ty.holds, Leaf.holds] at h
            exact .later (by omega) _
          | _ => simp [lazyTy, boolDest, Ty.holds] at h
        | _ => simp [lazyTy, boolDest, Ty.holds] at h
      | _ => simp [lazyTy, boolDest, Ty.holds] at h
    | _ => exact fun {v'} h => ⟨v', h, leaf h⟩
  | void => intro v' h; simp [lazyTy, Ty.holds] at h
  | alt a b iha ihb =>
    intro v' h
    cases v' <;> simp only [lazyTy, Ty.holds, Bool.false_eq_true] at h
    · obtain ⟨v, h1, h2⟩ := iha h
      exact ⟨.here v, h1, .here h2⟩
    · obtain ⟨v, h1, h2⟩ := ihb h
      exact ⟨.there v, h1, .there h2⟩
  | unit =>
    intro v' h
    cases v' <;> simp only [lazyTy, Ty.holds, Bool.false_eq_true] at h
    exact ⟨.nil, rfl, .nil⟩
  | cell a b iha ihb =>
    intro v' h
    cases v' <;> simp only [lazyTy, Ty.holds, Bool.false_eq_true, Bool.and_eq_true] at h
    obtain ⟨v, h1, h2⟩ := iha h.1
    obtain ⟨w, h3, h4⟩ := ihb h.2
    exact ⟨.cons v w, by simp [Ty.holds, h1, h3], .cons h2 h4⟩
  | arr n t ih =>
    intro v' h
    simp only [lazyTy, Ty.holds] at h ⊢
    induction n generalizing v' with
    | zero =>
      cases v' <;> simp only [holdsAll, Bool.false_eq_true] at h
      exact ⟨.nil, rfl, .nil⟩
    | succ n ihn =>
      cases v' <;> simp only [holdsAll, Bool.false_eq_true, Bool.and_eq_true] at h
      obtain ⟨v, h1, h2⟩ := ih h.1
      obtain ⟨w, h3, h4⟩ := ihn h.2
      exact ⟨.cons v w, by simp [holdsAll, h1, h3], .cons h2 h4⟩

theorem bools_drops {b : Body L} {t : Ty} (h : (bools b).Drops t) :
    (∃ u, b.Drops u ∧ t = lazyTy u) ∨ ∃ n u, b.Discards n u ∧ t = .arr n (lazyTy u) := by
  have up : ∀ {k : Body L} {b : Body L}, (∀ u, k.Drops u → b.Drops u) →
      (∀ n u, k.Discards n u → b.Discards n u) →
      ((∃ u, k.Drops u ∧ t = lazyTy u) ∨ ∃ n u, k.Discards n u ∧ t = .arr n (lazyTy u)) →
      (∃ u, b.Drops u ∧ t = lazyTy u) ∨ ∃ n u, b.Discards n u ∧ t = .arr n (lazyTy u) := by
    rintro k b h1 h2 (⟨u, h, e⟩ | ⟨n, u, h, e⟩)
    · exact .inl ⟨u, h1 u h, e⟩
    · exact .inr ⟨n, u, h2 n u h, e⟩
  induction b with
  | ret o => cases h
  | op l i o k ih =>
    cases h with | op h => exact up (fun _ => .op) (fun _ _ => .op) (ih h)
  | drop u x k ih =>
    cases h with
    | here => exact .inl ⟨u, .here, rfl⟩
    | drop h => exact up (fun _ => .drop) (fun _ _ => .drop) (ih h)
  | discard n u x k ih =>
    unfold bools at h
    split at h
    · cases h with | discard h => exact up (fun _ => .discard) (fun _ _ => .discard) (ih h)
    · cases h with
      | here => exact .inr ⟨n, u, .here, rfl⟩
      | drop h => exact up (fun _ => .discard) (fun _ _ => .discard) (ih h)
  | dfg c x k ih =>
    cases h with | dfg h => exact up (fun _ => .dfg) (fun _ _ => .dfg) (ih h)
  | cond x y a b o k iha ihb ihk =>
    cases h with
    | left h => exact up (fun _ => .left) (fun _ _ => .left) (iha h)
    | right h => exact up (fun _ => .right) (fun _ _ => .right) (ihb h)
    | cond h => exact up (fun _ => .cond) (fun _ _ => .cond) (ihk h)
  | call f i o k ih =>
    cases h with | call h => exact up (fun _ => .call) (fun _ _ => .call) (ih h)

theorem drops_bools {b : Body L} {u : Ty} (h : b.Drops u) : (bools b).Drops (lazyTy u) := by
  induction h with
  | here => exact .here
  | op _ ih => exact .op ih
  | drop _ ih => exact .drop ih
  | discard _ ih =>
    unfold bools
    split
    · exact .discard ih
    · exact .drop ih
  | dfg _ ih => exact .dfg ih
  | left _ ih => exact .left ih
  | right _ ih => exact .right ih
  | cond _ ih => exact .cond ih
  | call _ ih => exact .call ih

theorem bools_discards {b : Body L} {n : Nat} {t : Ty} (h : (bools b).Discards n t) :
    t.copyable = true := by
  induction b with
  | ret o => cases h
  | op l i o k ih => cases h with | op h => exact ih h
  | drop u x k ih => cases h with | drop h => exact ih h
  | discard m u x k ih =>
    unfold bools at h
    split at h
    · cases h with
      | here => assumption
      | discard h => exact ih h
    · cases h with | drop h => exact ih h
  | dfg c x k ih => cases h with | dfg h => exact ih h
  | cond x y a b o k iha ihb ihk =>
    cases h with
    | left h => exact iha h
    | right h => exact ihb h
    | cond h => exact ihk h
  | call f i o k ih => cases h with | call h => exact ih h

theorem lower_discards {b : Body L} {n : Nat} {t : Ty} : ∀ {b' : Body L}, lower b = some b' →
    b'.Discards n t → b.Discards n t := by
  induction b with
  | ret o => intro b' h hd; cases h; exact hd
  | op l i o k ih =>
    intro b' h hd
    obtain ⟨k', hk, rfl⟩ := Option.map_eq_some_iff.mp h
    cases hd with | op hd => exact .op (ih hk hd)
  | drop u x k ih =>
    intro b' h hd
    unfold lower at h
    split at h
    · cases h
      cases hd with | dfg hd => exact .drop (ih ‹_› hd)
    · cases h
  | discard m u x k ih =>
    intro b' h hd
    obtain ⟨k', hk, rfl⟩ := Option.map_eq_some_iff.mp h
    cases hd with
    | here => exact .here
    | discard hd => exact .discard (ih hk hd)
  | dfg c x k ih =>
    intro b' h hd
    obtain ⟨k', hk, rfl⟩ := Option.map_eq_some_iff.mp h
    cases hd with | dfg hd => exact .dfg (ih hk hd)
  | cond x y a b o k iha ihb ihk =>
    intro b' h hd
    unfold lower at h
    split at h
    · cases h
      cases hd with
      | left hd => exact .left (iha ‹_› hd)
      | right hd => exact .right (ihb ‹_› hd)
      | cond hd => exact .cond (ihk ‹_› hd)
    · cases h
  | call f i o k ih =>
    intro b' h hd
    obtain ⟨k', hk, rfl⟩ := Option.map_eq_some_iff.mp h
    cases hd with | call hd => exact .call (ih hk hd)

end Verif.Drops
