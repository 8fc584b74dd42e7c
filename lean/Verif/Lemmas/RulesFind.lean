import Verif.Lemmas.Rules

/-
Lemmas about the search for rewrites.
-/
namespace Verif.Matching

theorem Res.bind_ok {α β : Type} {r : Res α} {f : α → Res β} {b : β} :
    r.bind f = .ok b ↔ ∃ a, r = .ok a ∧ f a = .ok b := by
  cases r <;> simp [Res.bind]

theorem patternsOf_ok {choose : Pattern → Option Walk} : ∀ {ls : List TCirc} {ps : List CPattern},
    patternsOf choose ls = .ok ps ↔
      List.length ps = ls.length ∧ ∀ (i : Nat) (l : TCirc) (p : CPattern), ls[i]? = some l → ps[i]? = some p → tryFromCircuit choose l.toCirc = .ok p
  | [], ps => by
    simp only [patternsOf, Res.ok.injEq, List.length_nil, List.length_eq_zero_iff]
    constructor
    · rintro rfl; simp
    · rintro ⟨rfl, _⟩; rfl
  | l :: ls, ps => by
    have hp : ∀ p, patternOf choose l.toCirc = .ok p ↔ tryFromCircuit choose l.toCirc = .ok p := by
      intro p
      rw [patternOf]
      cases tryFromCircuit choose l.toCirc <;> simp
    rw [patternsOf, Res.bind_ok]
    constructor
    · rintro ⟨p, h1, h2⟩
      obtain ⟨qs, h3, h4⟩ := Res.bind_ok.mp h2
      simp only [Res.ok.injEq] at h4
      subst h4
      obtain ⟨g1, g2⟩ := patternsOf_ok.mp h3
      refine ⟨by simp [g1], ?_⟩
      intro i l' p' hl hp'
      cases i with
      | zero =>
        simp only [List.getElem?_cons_zero, Option.some.injEq] at hl hp'
        subst hl hp'
        exact (hp _).mp h1
      | succ i =>
        simp only [List.getElem?_cons_succ] at hl hp'
        exact g2 i l' p' hl hp'
    · rintro ⟨h1, h2⟩
      cases ps with
      | nil => simp at h1
      | cons p ps =>
        refine ⟨p, (hp _).mpr (h2 0 l p rfl rfl), Res.bind_ok.mpr ⟨ps, patternsOf_ok.mpr ⟨by simpa using h1, ?_⟩, rfl⟩⟩
        intro i l' p' hl hp'
        exact h2 (i + 1) l' p' (by simpa using hl) (by simpa using hp')

theorem tryAll_mem {x : Ext} {m : Matcher} {c : Circ} {root : Nat} : ∀ {ids : List Nat} {as : List Match},
    tryAll x m c root ids = .ok as →
    ∀ a, a ∈ as ↔ ∃ id ∈ ids, tryMatch x m c root id = .ok (some a)
  | [], as, h => by
    simp only [tryAll, Res.ok.injEq] at h
    subst h; simp
  | id :: ids, as, h => by
    obtain ⟨o, h1, h2⟩ := Res.bind_ok.mp h
    obtain ⟨bs, h3, h4⟩ := Res.bind_ok.mp h2
    simp only [Res.ok.injEq] at h4
    subst h4
    have ih := tryAll_mem h3
    intro a
    cases o with
    | none =>
      simp only [ih a, List.mem_cons, exists_eq_or_imp]
      constructor
      · exact .inr
      · rintro (g | g)
        · rw [h1] at g; simp at g
        · exact g
    | some b =>
      simp only [List.mem_cons, ih a, exists_eq_or_imp]
      constructor
      · rintro (rfl | g)
        · exact .inl h1
        · exact .inr g
      · rintro (g | g)
        · rw [h1] at g
          simp at g
          exact .inl g.symm
        · exact .inr g

theorem toRewrites_mem {m : Matcher} {c : TCirc} : ∀ {as : List Match} {rs : List Rewrite},
    toRewrites m c as = .ok rs → ∀ r, r ∈ rs ↔ ∃ a ∈ as, matchToRewrite m c a = .ok r
  | [], rs, h => by
    simp only [toRewrites, Res.ok.injEq] at h
    subst h; simp
  | a :: as, rs, h => by
    obtain ⟨r0, h1, h2⟩ := Res.bind_ok.mp h
    obtain ⟨bs, h3, h4⟩ := Res.bind_ok.mp h2
    simp only [Res.ok.injEq] at h4
    subst h4
    intro r
    simp only [List.mem_cons, toRewrites_mem h3 r, exists_eq_or_imp]
    refine or_congr ?_ Iff.rfl
    rw [h1]
    simp [eq_comm]

theorem findMatchesFrom_mem {x : Ext} {m : Matcher} {c : TCirc} : ∀ {ns : List Nat} {rs : List Rewrite},
    findMatchesFrom x m c ns = .ok rs →
    ∀ r, r ∈ rs ↔ ∃ n ∈ ns, ∃ id ∈ x.auto n, ∃ a, tryMatch x m c.toCirc n id = .ok (some a) ∧
      matchToRewrite m c a = .ok r
  | [], rs, h => by
    simp only [findMatchesFrom, Res.ok.injEq] at h
    subst h; simp
  | n :: ns, rs, h => by
    obtain ⟨as, h1, h2⟩ := Res.bind_ok.mp h
    obtain ⟨r1, h3, h4⟩ := Res.bind_ok.mp h2
    obtain ⟨r2, h5, h6⟩ := Res.bind_ok.mp h4
    simp only [Res.ok.injEq] at h6
    subst h6
    intro r
    rw [List.mem_append, toRewrites_mem h3 r, findMatchesFrom_mem h5 r]
    simp only [List.mem_cons, exists_eq_or_imp]
    refine or_congr ?_ Iff.rfl
    constructor
    · rintro ⟨a, ha, hr⟩
      obtain ⟨id, hid, ht⟩ := (tryAll_mem h1 a).mp ha
      exact ⟨id, hid, a, ht, hr⟩
    · rintro ⟨id, hid, a, ht, hr⟩
      exact ⟨a, (tryAll_mem h1 a).mpr ⟨id, hid, ht⟩, hr⟩

/-- The first rewrite is the first of all rewrites. -/
theorem findMatchFrom_head {x : Ext} {m : Matcher} {c : TCirc} : ∀ {ns : List Nat} {rs : List Rewrite},
    findMatchesFrom x m c ns = .ok rs → findMatchFrom x m c ns = .ok rs.head?
  | [], rs, h => by
    simp only [findMatchesFrom, Res.ok.injEq] at h
    subst h; rfl
  | n :: ns, rs, h => by
    obtain ⟨as, h1, h2⟩ := Res.bind_ok.mp h
    obtain ⟨r1, h3, h4⟩ := Res.bind_ok.mp h2
    obtain ⟨r2, h5, h6⟩ := Res.bind_ok.mp h4
    simp only [Res.ok.injEq] at h6
    subst h6
    rw [findMatchFrom, h1]
    cases as with
    | nil =>
      simp only [toRewrites, Res.ok.injEq] at h3
      subst h3
      simpa [Res.bind] using findMatchFrom_head h5
    | cons a as =>
      obtain ⟨r0, g1, g2⟩ := Res.bind_ok.mp h3
      obtain ⟨bs, g3, g4⟩ := Res.bind_ok.mp g2
      simp only [Res.ok.injEq] at g4
      subst g4
      simp [Res.bind, g1]

theorem inTypes_spec {c : TCirc} {w : Nat → Nat × Nat} : ∀ {gs : List (List (Nat × Nat))} {k : Nat},
    (∀ g ∈ gs, g ≠ []) → (∀ i ps, gs[i]? = some ps → ∀ x ∈ ps, (c.ins x.1)[x.2]? = some (w (k + i))) →
    inTypes c gs = some ((List.range gs.length).map fun i => c.ty (w (k + i)).1 (w (k + i)).2)
  | [], _, _, _ => rfl
  | g :: gs, k, h1, h2 => by
    cases g with
    | nil => exact absurd rfl (h1 [] (by simp))
    | cons x g =>
      have hx := h2 0 _ rfl x (by simp)
      have ih := inTypes_spec (c := c) (w := w) (gs := gs) (k := k + 1) (fun g hg => h1 g (by simp [hg]))
        (fun i ps hi y hy => by
          have := h2 (i + 1) ps (by simpa using hi) y hy
          rw [this]; congr 2; omega)
      simp only [inTypes, List.head?_cons, Option.bind_some, hx, ih, Option.map_some,
        Option.some.injEq, List.length_cons, List.range_succ_eq_map, List.map_cons, List.map_map,
        Nat.add_zero, List.cons.injEq, true_and]
      apply List.map_congr_left
      intro i _
      simp only [Function.comp]
      rw [show k + 1 + i = k + (i + 1) by omega]

end Verif.Matching
