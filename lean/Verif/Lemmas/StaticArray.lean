import Verif.Model.StaticArraySpec

/- Helper lemmas about static arrays. -/
namespace Verif.StaticArray

theorem stripAll_eq : ∀ vs : List Val, stripAll vs = vs.map strip
  | [] => rfl
  | v :: vs => by rw [stripAll, stripAll_eq vs]; rfl

theorem shownAll_eq : ∀ vs : List Val, shownAll vs = vs.map shown
  | [] => rfl
  | v :: vs => by rw [shownAll, shownAll_eq vs]; rfl

mutual
/-- Values of types that do not mention `tket.bool` are left alone. -/
theorem strip_same : ∀ {t : Ty} {v : Val}, mentions t = false → HasTy t v → strip v = v
  | .obool, _, h, _ => by simp [mentions] at h
  | .atom _, v, _, hv => by obtain ⟨k, rfl⟩ := hv; rw [strip]
  | .func _, v, _, hv => by
    rw [HasTy] at hv
    obtain ⟨k, rfl⟩ := hv; rw [strip]
  | .sarr t, v, h, hv => by
    rw [HasTy] at hv
    obtain ⟨vs, rfl, hvs⟩ := hv
    rw [mentions] at h
    rw [strip, stripAll_eq, List.map_congr_left fun w hw => strip_same h (hvs w hw), List.map_id']
  | .app t, v, h, hv => by
    rw [HasTy] at hv
    obtain ⟨vs, rfl, hvs⟩ := hv
    rw [mentions] at h
    rw [strip, stripAll_eq, List.map_congr_left fun w hw => strip_same h (hvs w hw), List.map_id']
  | .sum ts, v, h, hv => by
    rw [HasTy] at hv
    obtain ⟨i, w, rfl, hw⟩ := hv
    rw [mentions] at h
    rw [strip, strip_sameAt h hw]
  | .row ts, v, h, hv => by
    rw [HasTy] at hv
    obtain ⟨vs, rfl, hvs⟩ := hv
    rw [mentions] at h
    rw [strip, strip_sameRow h hvs]
theorem strip_sameAt : ∀ {ts : List Ty} {i : Nat} {w : Val}, mentionsAny ts = false →
    HasTyAt ts i w → strip w = w
  | [], _, _, _, hw => by rw [HasTyAt] at hw; exact hw.elim
  | t :: ts, i, w, h, hw => by
    rw [mentionsAny, Bool.or_eq_false_iff] at h
    cases i with
    | zero => rw [HasTyAt] at hw; exact strip_same h.1 hw
    | succ i => rw [HasTyAt] at hw; exact strip_sameAt h.2 hw
theorem strip_sameRow : ∀ {ts : List Ty} {vs : List Val}, mentionsAny ts = false →
    HasTyRow ts vs → stripAll vs = vs
  | [], vs, _, hv => by rw [HasTyRow] at hv; rw [hv]; rfl
  | t :: ts, vs, h, hv => by
    rw [HasTyRow] at hv
    obtain ⟨v, vs', rfl, h1, h2⟩ := hv
    rw [mentionsAny, Bool.or_eq_false_iff] at h
    rw [stripAll, strip_same h.1 h1, strip_sameRow h.2 h2]
end

mutual
/-- Without bare `tket.bool`s only static arrays change. -/
theorem strip_shown : ∀ {t : Ty} {v : Val}, bare t = false → HasTy t v → strip v = shown v
  | .obool, _, h, _ => by simp [bare] at h
  | .atom _, v, _, hv => by obtain ⟨k, rfl⟩ := hv; rw [strip, shown]
  | .func _, v, _, hv => by
    rw [HasTy] at hv
    obtain ⟨k, rfl⟩ := hv; rw [strip, shown]
  | .sarr t, v, h, hv => by
    rw [HasTy] at hv
    obtain ⟨vs, rfl, hvs⟩ := hv
    rw [strip, shown]
  | .app t, v, h, hv => by
    rw [HasTy] at hv
    obtain ⟨vs, rfl, hvs⟩ := hv
    rw [bare] at h
    rw [strip, shown, stripAll_eq, shownAll_eq,
      List.map_congr_left fun w hw => strip_shown h (hvs w hw)]
  | .sum ts, v, h, hv => by
    rw [HasTy] at hv
    obtain ⟨i, w, rfl, hw⟩ := hv
    rw [bare] at h
    rw [strip, shown, strip_shownAt h hw]
  | .row ts, v, h, hv => by
    rw [HasTy] at hv
    obtain ⟨vs, rfl, hvs⟩ := hv
    rw [bare] at h
    rw [strip, shown, strip_shownRow h hvs]
theorem strip_shownAt : ∀ {ts : List Ty} {i : Nat} {w : Val}, bareAny ts = false →
    HasTyAt ts i w → strip w = shown w
  | [], _, _, _, hw => by rw [HasTyAt] at hw; exact hw.elim
  | t :: ts, i, w, h, hw => by
    rw [bareAny, Bool.or_eq_false_iff] at h
    cases i with
    | zero => rw [HasTyAt] at hw; exact strip_shown h.1 hw
    | succ i => rw [HasTyAt] at hw; exact strip_shownAt h.2 hw
theorem strip_shownRow : ∀ {ts : List Ty} {vs : List Val}, bareAny ts = false →
    HasTyRow ts vs → stripAll vs = shownAll vs
  | [], vs, _, hv => by rw [HasTyRow] at hv; rw [hv]; rfl
  | t :: ts, vs, h, hv => by
    rw [HasTyRow] at hv
    obtain ⟨v, vs', rfl, h1, h2⟩ := hv
    rw [bareAny, Bool.or_eq_false_iff] at h
    rw [stripAll, shownAll, strip_shown h.1 h1, strip_shownRow h.2 h2]
end

mutual
theorem bare_of_mentions : ∀ {t : Ty}, mentions t = false → bare t = false
  | .obool, h => by simp [mentions] at h
  | .atom _, _ => rfl
  | .func _, _ => rfl
  | .sarr _, _ => rfl
  | .app t, h => by rw [mentions] at h; rw [bare]; exact bare_of_mentions h
  | .sum ts, h => by rw [mentions] at h; rw [bare]; exact bareAny_of_mentions h
  | .row ts, h => by rw [mentions] at h; rw [bare]; exact bareAny_of_mentions h
theorem bareAny_of_mentions : ∀ {ts : List Ty}, mentionsAny ts = false → bareAny ts = false
  | [], _ => rfl
  | t :: ts, h => by
    rw [mentionsAny, Bool.or_eq_false_iff] at h
    rw [bareAny, bare_of_mentions h.1, bareAny_of_mentions h.2]; rfl
end

mutual
/-- Converting back a stripped value. -/
theorem newToOld_strip : ∀ {t : Ty} {v : Val}, clean t = true → HasTy t v →
    newToOld t (strip v) = shown v
  | .obool, v, _, hv => by
    obtain ⟨b, rfl⟩ := hv
    rw [strip, shown, newToOld]
    cases b <;> rfl
  | .atom _, v, _, hv => by
    obtain ⟨k, rfl⟩ := hv
    rw [newToOld, strip, shown]
  | .func _, v, _, hv => by
    rw [HasTy] at hv
    obtain ⟨k, rfl⟩ := hv
    rw [newToOld, strip, shown]
  | .sarr t, v, _, hv => by
    rw [newToOld]
    exact strip_shown rfl hv
  | .app t, v, hc, hv => by
    rw [newToOld]
    rw [clean] at hc
    exact strip_shown (by rw [bare]; simpa using hc) hv
  | .sum ts, v, hc, hv => by
    rw [HasTy] at hv
    obtain ⟨i, w, rfl, hw⟩ := hv
    rw [clean] at hc
    rw [strip, shown, newToOld]
    cases hm : mentionsAny ts with
    | false =>
      rw [if_neg (by simp), strip_shownAt (bareAny_of_mentions hm) hw]
    | true =>
      rw [if_pos rfl, newToOldAt_strip hc hw]
  | .row ts, v, hc, hv => by
    rw [HasTy] at hv
    obtain ⟨vs, rfl, hvs⟩ := hv
    rw [clean] at hc
    rw [strip, shown, newToOld, newToOldRow_strip hc hvs]
theorem newToOldAt_strip : ∀ {ts : List Ty} {i : Nat} {w : Val}, cleanAll ts = true →
    HasTyAt ts i w → newToOldAt ts i (strip w) = shown w
  | [], _, _, _, hw => by rw [HasTyAt] at hw; exact hw.elim
  | t :: ts, i, w, hc, hw => by
    rw [cleanAll, Bool.and_eq_true] at hc
    cases i with
    | zero => rw [HasTyAt] at hw; rw [newToOldAt]; exact newToOld_strip hc.1 hw
    | succ i => rw [HasTyAt] at hw; rw [newToOldAt]; exact newToOldAt_strip hc.2 hw
theorem newToOldRow_strip : ∀ {ts : List Ty} {vs : List Val}, cleanAll ts = true →
    HasTyRow ts vs → newToOldRow ts (stripAll vs) = shownAll vs
  | [], vs, _, hv => by rw [HasTyRow] at hv; rw [hv]; rfl
  | t :: ts, vs, hc, hv => by
    rw [HasTyRow] at hv
    obtain ⟨v, vs', rfl, h1, h2⟩ := hv
    rw [cleanAll, Bool.and_eq_true] at hc
    rw [stripAll, shownAll, newToOldRow, newToOld_strip hc.1 h1, newToOldRow_strip hc.2 h2]
end

/-! ### Types -/

theorem nbool_typed (b : Bool) : HasTy nbool (nval b) := by
  rw [nbool, HasTy]
  cases b
  · exact ⟨0, .row [], rfl, by rw [HasTyAt, HasTy]; exact ⟨[], rfl, by rw [HasTyRow]⟩⟩
  · refine ⟨1, .row [], rfl, ?_⟩
    rw [HasTyAt, HasTyAt, HasTy]; exact ⟨[], rfl, by rw [HasTyRow]⟩

mutual
/-- Stripped values have the replaced type. -/
theorem strip_typed : ∀ {t : Ty} {v : Val}, HasTy t v → HasTy (inner t) (strip v)
  | .obool, v, hv => by
    obtain ⟨b, rfl⟩ := hv
    rw [inner, strip]; exact nbool_typed b
  | .atom _, v, hv => by
    obtain ⟨k, rfl⟩ := hv
    rw [inner, strip, HasTy]; exact ⟨k, rfl⟩
  | .func _, v, hv => by
    rw [HasTy] at hv
    obtain ⟨k, rfl⟩ := hv
    rw [inner, strip, HasTy]; exact ⟨k, rfl⟩
  | .sarr t, v, hv => by
    rw [HasTy] at hv
    obtain ⟨vs, rfl, hvs⟩ := hv
    rw [inner, strip, HasTy, stripAll_eq]
    refine ⟨_, rfl, fun w hw => ?_⟩
    obtain ⟨x, hx, rfl⟩ := List.mem_map.1 hw
    exact strip_typed (hvs x hx)
  | .app t, v, hv => by
    rw [HasTy] at hv
    obtain ⟨vs, rfl, hvs⟩ := hv
    rw [inner, strip, HasTy, stripAll_eq]
    refine ⟨_, rfl, fun w hw => ?_⟩
    obtain ⟨x, hx, rfl⟩ := List.mem_map.1 hw
    exact strip_typed (hvs x hx)
  | .sum ts, v, hv => by
    rw [HasTy] at hv
    obtain ⟨i, w, rfl, hw⟩ := hv
    rw [inner, strip, HasTy]
    exact ⟨i, _, rfl, strip_typedAt hw⟩
  | .row ts, v, hv => by
    rw [HasTy] at hv
    obtain ⟨vs, rfl, hvs⟩ := hv
    rw [inner, strip, HasTy]
    exact ⟨_, rfl, strip_typedRow hvs⟩
theorem strip_typedAt : ∀ {ts : List Ty} {i : Nat} {w : Val}, HasTyAt ts i w →
    HasTyAt (innerAll ts) i (strip w)
  | [], _, _, hw => by rw [HasTyAt] at hw; exact hw.elim
  | t :: ts, i, w, hw => by
    rw [innerAll]
    cases i with
    | zero => rw [HasTyAt] at hw ⊢; exact strip_typed hw
    | succ i => rw [HasTyAt] at hw ⊢; exact strip_typedAt hw
theorem strip_typedRow : ∀ {ts : List Ty} {vs : List Val}, HasTyRow ts vs →
    HasTyRow (innerAll ts) (stripAll vs)
  | [], vs, hv => by rw [HasTyRow] at hv; rw [hv, innerAll, stripAll, HasTyRow]
  | t :: ts, vs, hv => by
    rw [HasTyRow] at hv
    obtain ⟨v, vs', rfl, h1, h2⟩ := hv
    rw [innerAll, stripAll, HasTyRow]
    exact ⟨_, _, rfl, strip_typed h1, strip_typedRow h2⟩
end

mutual
/-- What has to be shown has the type after the pass. -/
theorem shown_typed : ∀ {t : Ty} {v : Val}, HasTy t v → HasTy (outer t) (shown v)
  | .obool, v, hv => by
    obtain ⟨b, rfl⟩ := hv
    rw [outer, shown, HasTy]; exact ⟨b, rfl⟩
  | .atom _, v, hv => by
    obtain ⟨k, rfl⟩ := hv
    rw [outer, shown, HasTy]; exact ⟨k, rfl⟩
  | .func _, v, hv => by
    rw [HasTy] at hv
    obtain ⟨k, rfl⟩ := hv
    rw [outer, shown, HasTy]; exact ⟨k, rfl⟩
  | .sarr t, v, hv => by
    have := strip_typed hv
    rw [HasTy] at hv
    obtain ⟨vs, rfl, hvs⟩ := hv
    rw [outer, shown]
    rwa [inner, strip] at this
  | .app t, v, hv => by
    rw [HasTy] at hv
    obtain ⟨vs, rfl, hvs⟩ := hv
    rw [outer, shown, HasTy, shownAll_eq]
    refine ⟨_, rfl, fun w hw => ?_⟩
    obtain ⟨x, hx, rfl⟩ := List.mem_map.1 hw
    exact shown_typed (hvs x hx)
  | .sum ts, v, hv => by
    rw [HasTy] at hv
    obtain ⟨i, w, rfl, hw⟩ := hv
    rw [outer, shown, HasTy]
    exact ⟨i, _, rfl, shown_typedAt hw⟩
  | .row ts, v, hv => by
    rw [HasTy] at hv
    obtain ⟨vs, rfl, hvs⟩ := hv
    rw [outer, shown, HasTy]
    exact ⟨_, rfl, shown_typedRow hvs⟩
theorem shown_typedAt : ∀ {ts : List Ty} {i : Nat} {w : Val}, HasTyAt ts i w →
    HasTyAt (outerAll ts) i (shown w)
  | [], _, _, hw => by rw [HasTyAt] at hw; exact hw.elim
  | t :: ts, i, w, hw => by
    rw [outerAll]
    cases i with
    | zero => rw [HasTyAt] at hw ⊢; exact shown_typed hw
    | succ i => rw [HasTyAt] at hw ⊢; exact shown_typedAt hw
theorem shown_typedRow : ∀ {ts : List Ty} {vs : List Val}, HasTyRow ts vs →
    HasTyRow (outerAll ts) (shownAll vs)
  | [], vs, hv => by rw [HasTyRow] at hv; rw [hv, outerAll, shownAll, HasTyRow]
  | t :: ts, vs, hv => by
    rw [HasTyRow] at hv
    obtain ⟨v, vs', rfl, h1, h2⟩ := hv
    rw [outerAll, shownAll, HasTyRow]
    exact ⟨_, _, rfl, shown_typed h1, shown_typedRow h2⟩
end

mutual
theorem inner_same : ∀ {t : Ty}, mentions t = false → inner t = t
  | .obool, h => by simp [mentions] at h
  | .atom _, _ => by rw [inner]
  | .func m, h => by rw [mentions] at h; rw [h, inner]
  | .sarr t, h => by rw [mentions] at h; rw [inner, inner_same h]
  | .app t, h => by rw [mentions] at h; rw [inner, inner_same h]
  | .sum ts, h => by rw [mentions] at h; rw [inner, innerAll_same h]
  | .row ts, h => by rw [mentions] at h; rw [inner, innerAll_same h]
theorem innerAll_same : ∀ {ts : List Ty}, mentionsAny ts = false → innerAll ts = ts
  | [], _ => rfl
  | t :: ts, h => by
    rw [mentionsAny, Bool.or_eq_false_iff] at h
    rw [innerAll, inner_same h.1, innerAll_same h.2]
end

mutual
theorem mentions_inner : ∀ t : Ty, mentions (inner t) = false
  | .obool => rfl
  | .atom _ => by rw [inner, mentions]
  | .func m => by rw [inner, mentions]
  | .sarr t => by rw [inner, mentions, mentions_inner t]
  | .app t => by rw [inner, mentions, mentions_inner t]
  | .sum ts => by rw [inner, mentions, mentionsAny_inner ts]
  | .row ts => by rw [inner, mentions, mentionsAny_inner ts]
theorem mentionsAny_inner : ∀ ts : List Ty, mentionsAny (innerAll ts) = false
  | [] => rfl
  | t :: ts => by rw [innerAll, mentionsAny, mentions_inner t, mentionsAny_inner ts]; rfl
end

/-- A value reports a change exactly if its type mentions `tket.bool` and it is not hollow. -/
theorem changed_iff : ∀ {t : Ty} {v : Val}, HasTy t v →
    (changed t v = true ↔ mentions t = true ∧ ¬ hollow t v)
  | .obool, v, _ => by simp [changed, hollow]
  | .atom _, v, _ => by simp [changed, hollow]
  | .func _, v, _ => by simp [changed, hollow]
  | .app _, v, _ => by simp [changed, hollow]
  | .sum _, v, _ => by simp [changed, hollow]
  | .row _, v, _ => by simp [changed, hollow]
  | .sarr t, v, hv => by
    rw [HasTy] at hv
    obtain ⟨vs, rfl, hvs⟩ := hv
    rw [changed, mentions, hollow, List.any_eq_true]
    constructor
    · rintro ⟨w, hw, hc⟩
      have := (changed_iff (hvs w hw)).1 hc
      exact ⟨this.1, fun h => this.2 (h vs rfl w hw)⟩
    · rintro ⟨hm, hh⟩
      apply Classical.byContradiction
      intro hn
      apply hh
      intro vs' he w hw
      cases he
      apply Classical.byContradiction
      intro hw'
      exact hn ⟨w, hw, (changed_iff (hvs w hw)).2 ⟨hm, hw'⟩⟩

mutual
theorem buildOk_iff : ∀ t : Ty, buildOk t = true ↔ ¬ Stuck t
  | .obool => by rw [buildOk]; exact ⟨fun _ h => (by cases h), fun _ => rfl⟩
  | .atom _ => by rw [buildOk]; exact ⟨fun _ h => (by cases h), fun _ => rfl⟩
  | .sarr _ => by rw [buildOk]; exact ⟨fun _ h => (by cases h), fun _ => rfl⟩
  | .app _ => by rw [buildOk]; exact ⟨fun _ h => (by cases h), fun _ => rfl⟩
  | .func m => by rw [buildOk]; exact ⟨fun h => (by cases h), fun h => absurd (.func m) h⟩
  | .row ts => by
    rw [buildOk, buildOkAll_iff ts]
    constructor
    · intro h hs
      cases hs with
      | field ht hs => exact h _ ht hs
    · intro h t ht hs
      exact h (.field ht hs)
  | .sum vs => by
    rw [buildOk, Bool.or_eq_true, buildOkAll_iff vs]
    constructor
    · intro h hs
      cases hs with
      | variant hm ht hs =>
        rw [mentions] at hm
        rcases h with h | h
        · rw [hm] at h; cases h
        · exact h _ ht hs
    · intro h
      cases hm : mentionsAny vs with
      | false => exact .inl rfl
      | true => exact .inr fun t ht hs => h (.variant (by rw [mentions]; exact hm) ht hs)
theorem buildOkAll_iff : ∀ ts : List Ty, buildOkAll ts = true ↔ ∀ t ∈ ts, ¬ Stuck t
  | [] => by simp [buildOkAll]
  | t :: ts => by
    rw [buildOkAll, Bool.and_eq_true, buildOk_iff t, buildOkAll_iff ts, List.forall_mem_cons]
end

end Verif.StaticArray
