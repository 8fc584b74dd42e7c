import Verif.Model.OpMapSpec
import Mathlib.Data.Finset.Card
import Mathlib.Data.List.Nodup

namespace Verif.OpMap

variable {K F : Type} [DecidableEq K]

/-- The operations in the map. -/
def keys (t : Table K F) : List K := t.map Prod.fst

theorem look_isSome (t : Table K F) (k : K) : (look t k).isSome ↔ k ∈ keys t := by
  unfold look keys
  rw [Option.isSome_map, List.find?_isSome]
  simp

theorem look_append {t : Table K F} {k : K} (a : Table K F) (h : k ∈ keys t) : look (t ++ a) k = look t k := by
  have h' := (look_isSome t k).mpr h
  unfold look at h' ⊢
  rw [List.find?_append]
  cases hf : t.find? fun e => decide (e.1 = k) with
  | none => rw [hf] at h'; cases h'
  | some e => rfl

theorem look_placeholder {t : Table K F} {k : K} (a : Table K F) (h : k ∉ keys t) :
    look (t ++ (k, none) :: a) k = some none := by
  have : t.find? (fun e => decide (e.1 = k)) = none := by
    rw [List.find?_eq_none]
    intro e he
    simp only [decide_eq_true_eq]
    rintro rfl
    exact h (List.mem_map.mpr ⟨e, he, rfl⟩)
  unfold look
  rw [List.find?_append, this]
  simp

theorem put_same {t : Table K F} {k : K} {v : Option F} (h : k ∉ keys t) : put t k v = t := by
  unfold put
  conv => rhs; rw [← List.map_id t]
  apply List.map_congr_left
  intro e he
  rw [if_neg]
  · rfl
  · rintro rfl
    exact h (List.mem_map.mpr ⟨e, he, rfl⟩)

theorem keys_put (t : Table K F) (k : K) (v : Option F) : keys (put t k v) = keys t := by
  unfold keys put
  rw [List.map_map]
  apply List.map_congr_left
  intro e _
  simp only [Function.comp]
  split <;> simp_all

/-- What a step does to the map. -/
structure Step (body : K → Body K F) (roots : List K) (t : Table K F) (r : Table K F × Out) : Prop where
  nodup : (keys t).Nodup → (keys r.1).Nodup
  added : ∃ a, r.1 = t ++ a ∧ (∀ e ∈ a, Needed body roots e.1) ∧
    (r.2 = .ok → (∀ e ∈ a, (body e.1).starts ∧ (∃ f, e.2 = some f ∧ (body e.1).result = some f) ∧
      ∀ x ∈ (body e.1).requests, x ∈ keys r.1) ∧ ∀ x ∈ roots, x ∈ keys r.1)

omit [DecidableEq K] in
theorem Needed.mono {body : K → Body K F} {ks ls : List K} (h : ∀ k ∈ ks, Needed body ls k) {k : K}
    (hk : Needed body ks k) : Needed body ls k := by
  induction hk with
  | given hk => exact h _ hk
  | asked _ hr ih => exact .asked ih hr

omit [DecidableEq K] in
theorem keys_append (t a : Table K F) : keys (t ++ a) = keys t ++ keys a := List.map_append

theorem runAll_step {body : K → Body K F} {ins : Table K F → K → Table K F × Out}
    (h : ∀ t k, Step body [k] t (ins t k)) (t : Table K F) (ks : List K) : Step body ks t (runAll ins t ks) := by
  induction ks generalizing t with
  | nil => exact ⟨id, [], by simp [runAll]⟩
  | cons k ks ih =>
    have hk := h t k
    unfold runAll
    cases hr : ins t k with
    | mk t' o =>
      rw [hr] at hk
      obtain ⟨hn, a, ha, hneed, hok⟩ := hk
      simp only at ha hok hn
      have hsub : ∀ x ∈ [k], Needed body (k :: ks) x := fun x hx => .given (by simp_all)
      have hfail : ∀ o, o ≠ .ok → Step body (k :: ks) t (t', o) := by
        intro o ho
        exact ⟨hn, a, ha, fun e he => (hneed e he).mono hsub, fun h => absurd h ho⟩
      cases o with
      | err => exact hfail _ (by decide)
      | fuel => exact hfail _ (by decide)
      | ok =>
        simp only
        obtain ⟨hn2, b, hb, hneed2, hok2⟩ := ih t'
        obtain ⟨h1, h2⟩ := hok rfl
        refine ⟨hn2 ∘ hn, a ++ b, by rw [hb, ha, List.append_assoc], ?_, ?_⟩
        · intro e he
          rcases List.mem_append.mp he with he | he
          · exact (hneed e he).mono hsub
          · exact (hneed2 e he).mono fun x hx => .given (List.mem_cons_of_mem _ hx)
        · intro ho
          obtain ⟨g1, g2⟩ := hok2 ho
          have hkeys : ∀ x ∈ keys t', x ∈ keys (runAll ins t' ks).1 := by
            intro x hx
            rw [hb, keys_append]
            exact List.mem_append_left _ hx
          constructor
          · intro e he
            rcases List.mem_append.mp he with he | he
            · obtain ⟨i, j, l⟩ := h1 e he
              exact ⟨i, j, fun x hx => hkeys x (l x hx)⟩
            · exact g1 e he
          · intro x hx
            rcases List.mem_cons.mp hx with rfl | hx
            · exact hkeys _ (h2 _ (by simp))
            · exact g2 x hx

theorem insertWith_step (body : K → Body K F) (n : Nat) (t : Table K F) (k : K) :
    Step body [k] t (insertWith body n t k) := by
  induction n generalizing t k with
  | zero => exact ⟨id, [], by simp [insertWith]⟩
  | succ n ih =>
    unfold insertWith
    by_cases hl : (look t k).isSome
    · rw [if_pos hl]
      refine ⟨id, [], by simp, by simp, fun _ => ⟨by simp, ?_⟩⟩
      intro x hx
      rw [List.mem_singleton.mp hx]
      exact (look_isSome t k).mp hl
    · rw [if_neg hl]
      have hk : k ∉ keys t := fun h => hl ((look_isSome t k).mpr h)
      cases hs : (body k).starts with
      | false => exact ⟨id, [], by simp⟩
      | true =>
        simp only [Bool.not_true, Bool.false_eq_true, if_false]
        obtain ⟨hn, a, ha, hneed, hok⟩ := runAll_step (ih) (t ++ [(k, none)]) (body k).requests
        have hn' : (keys t).Nodup → (keys (t ++ [(k, (none : Option F))])).Nodup := by
          intro h
          rw [keys_append]
          refine List.nodup_append.mpr ⟨h, by simp [keys], ?_⟩
          intro x hx y hy e
          have : y = k := by simpa [keys] using hy
          exact hk (this ▸ e ▸ hx)
        have hreq : ∀ x ∈ (body k).requests, Needed body [k] x := fun x hx => .asked (.given (by simp)) hx
        have hneed' : ∀ v, ∀ e ∈ (k, v) :: a, Needed body [k] e.1 := by
          intro v e he
          rcases List.mem_cons.mp he with rfl | he
          · exact .given (by simp)
          · exact (hneed e he).mono hreq
        generalize hr : runAll (insertWith body n) (t ++ [(k, none)]) (body k).requests = r at *
        obtain ⟨t', o⟩ := r
        simp only at ha hok hn
        have ha' : t' = t ++ (k, none) :: a := by rw [ha]; simp
        have hfail : ∀ o, o ≠ .ok → Step body [k] t (t', o) := fun o ho =>
          ⟨hn ∘ hn', _, ha', hneed' none, fun h => absurd h ho⟩
        cases o with
        | err => exact hfail _ (by decide)
        | fuel => exact hfail _ (by decide)
        | ok =>
          simp only
          cases hres : (body k).result with
          | none => exact hfail _ (by decide)
          | some f =>
            obtain ⟨g1, g2⟩ := hok rfl
            have hka : (keys t).Nodup → k ∉ keys a := by
              intro h1 h2
              have := hn (hn' h1)
              rw [ha', keys_append] at this
              have := (List.nodup_append.mp this).2.1
              exact (List.nodup_cons.mp this).1 h2
            refine ⟨fun h => by simp only; rw [keys_put]; exact hn (hn' h), put ((k, none) :: a) k (some f), ?_, ?_, ?_⟩
            · simp only
              rw [ha']
              have : put (t ++ (k, none) :: a) k (some f) = put t k (some f) ++ put ((k, none) :: a) k (some f) := by
                unfold put; rw [List.map_append]
              rw [this, put_same hk]
            · intro e he
              have : e.1 ∈ keys (put ((k, none) :: a) k (some f)) := List.mem_map.mpr ⟨e, he, rfl⟩
              rw [keys_put] at this
              obtain ⟨e', he', h⟩ := List.mem_map.mp this
              rw [← h]
              exact hneed' none e' he'
            · intro _
              simp only [keys_put]
              have hkt : k ∈ keys t' := by
                rw [ha', keys_append]
                exact List.mem_append_right _ (by simp [keys])
              constructor
              · intro e he
                have : ((k, some f) = e) ∨ e ∈ put a k (some f) := by
                  unfold put at he ⊢
                  simpa [eq_comm] using he
                rcases this with rfl | he
                · exact ⟨hs, ⟨f, rfl, hres⟩, g2⟩
                · unfold put at he
                  obtain ⟨e', he', rfl⟩ := List.mem_map.mp he
                  by_cases h : e'.1 = k
                  · rw [if_pos h]
                    exact ⟨hs, ⟨f, rfl, hres⟩, g2⟩
                  · rw [if_neg h]
                    exact g1 e' he'
              · intro x hx
                rw [List.mem_singleton.mp hx]
                exact hkt

theorem all_step (body : K → Body K F) (n : Nat) (t : Table K F) (ks : List K) :
    Step body ks t (runAll (insertWith body n) t ks) :=
  runAll_step (insertWith_step body n) t ks

/-- The key whose function cannot be built keeps its placeholder. -/
theorem insertWith_err (body : K → Body K F) (n : Nat) {t t' : Table K F} {k : K}
    (h : insertWith body n t k = (t', .err)) :
    k ∉ keys t ∧ (((body k).starts = false ∧ t' = t) ∨ look t' k = some none) := by
  cases n with
  | zero => cases h
  | succ n =>
    unfold insertWith at h
    by_cases hl : (look t k).isSome
    · rw [if_pos hl] at h; cases h
    · rw [if_neg hl] at h
      have hk : k ∉ keys t := fun h => hl ((look_isSome t k).mpr h)
      refine ⟨hk, ?_⟩
      cases hs : (body k).starts with
      | false =>
        rw [hs] at h
        cases h
        exact .inl ⟨rfl, rfl⟩
      | true =>
        right
        rw [hs] at h
        simp only [Bool.not_true, Bool.false_eq_true, if_false] at h
        obtain ⟨-, a, ha, -, -⟩ := all_step body n (t ++ [(k, none)]) (body k).requests
        generalize hr : runAll (insertWith body n) (t ++ [(k, none)]) (body k).requests = r at *
        obtain ⟨t1, o⟩ := r
        simp only at ha
        have hlook : look t1 k = some none := by
          rw [ha, List.append_assoc]
          exact look_placeholder a hk
        cases o with
        | err => cases h; exact hlook
        | fuel => cases h
        | ok =>
          simp only at h
          cases hres : (body k).result with
          | none => rw [hres] at h; cases h; exact hlook
          | some f => rw [hres] at h; cases h

theorem runAll_err {body : K → Body K F} {ins : Table K F → K → Table K F × Out}
    (h : ∀ t k, (ins t k).2 = .err → ∃ x, Needed body [k] x ∧ ((body x).starts = false ∨ (body x).result = none))
    (t : Table K F) (ks : List K) (he : (runAll ins t ks).2 = .err) :
    ∃ x, Needed body ks x ∧ ((body x).starts = false ∨ (body x).result = none) := by
  induction ks generalizing t with
  | nil => cases he
  | cons k ks ih =>
    unfold runAll at he
    have hk := h t k
    cases hr : ins t k with
    | mk t' o =>
      rw [hr] at he hk
      cases o with
      | fuel => cases he
      | err =>
        obtain ⟨x, hx, hb⟩ := hk rfl
        exact ⟨x, hx.mono fun y hy => .given (by simp_all), hb⟩
      | ok =>
        obtain ⟨x, hx, hb⟩ := ih t' he
        exact ⟨x, hx.mono fun y hy => .given (List.mem_cons_of_mem _ hy), hb⟩

/-- Errors come from a function that cannot be built. -/
theorem insertWith_reason (body : K → Body K F) (n : Nat) (t : Table K F) (k : K)
    (h : (insertWith body n t k).2 = .err) :
    ∃ x, Needed body [k] x ∧ ((body x).starts = false ∨ (body x).result = none) := by
  induction n generalizing t k with
  | zero => cases h
  | succ n ih =>
    unfold insertWith at h
    by_cases hl : (look t k).isSome
    · rw [if_pos hl] at h; cases h
    · rw [if_neg hl] at h
      cases hs : (body k).starts with
      | false => exact ⟨k, .given (by simp), .inl hs⟩
      | true =>
        rw [hs] at h
        simp only [Bool.not_true, Bool.false_eq_true, if_false] at h
        have hr := runAll_err ih (t ++ [(k, none)]) (body k).requests
        generalize runAll (insertWith body n) (t ++ [(k, none)]) (body k).requests = r at *
        obtain ⟨t', o⟩ := r
        cases o with
        | fuel => cases h
        | err =>
          obtain ⟨x, hx, hb⟩ := hr rfl
          exact ⟨x, hx.mono fun y hy => .asked (.given (by simp)) hy, hb⟩
        | ok =>
          simp only at h
          cases hres : (body k).result with
          | none => exact ⟨k, .given (by simp), .inr hres⟩
          | some f => rw [hres] at h; cases h

/-- Enough fuel. -/
theorem insertWith_fuel (body : K → Body K F) (S : Finset K) (hS : ∀ s ∈ S, ∀ r ∈ (body s).requests, r ∈ S)
    (n : Nat) : ∀ (t : Table K F) (k : K), k ∈ S → (S \ (keys t).toFinset).card < n →
      (insertWith body n t k).2 ≠ .fuel := by
  have hrun : ∀ n, (∀ (t : Table K F) (k : K), k ∈ S → (S \ (keys t).toFinset).card < n →
      (insertWith body n t k).2 ≠ .fuel) → ∀ (ks : List K) (t : Table K F), (∀ k ∈ ks, k ∈ S) →
      (S \ (keys t).toFinset).card < n → (runAll (insertWith body n) t ks).2 ≠ .fuel := by
    intro n hn ks
    induction ks with
    | nil => intro t _ _ h; cases h
    | cons k ks ih =>
      intro t hks hc
      unfold runAll
      have h1 := hn t k (hks k (by simp)) hc
      have h2 := (insertWith_step body n t k).added
      cases hr : insertWith body n t k with
      | mk t' o =>
        rw [hr] at h1 h2
        cases o with
        | fuel => exact absurd rfl h1
        | err => simp
        | ok =>
          simp only
          obtain ⟨a, ha, -, -⟩ := h2
          simp only at ha
          refine ih t' (fun x hx => hks x (List.mem_cons_of_mem _ hx)) (lt_of_le_of_lt ?_ hc)
          apply Finset.card_le_card
          intro x hx
          rw [Finset.mem_sdiff, List.mem_toFinset] at hx ⊢
          refine ⟨hx.1, fun h => hx.2 ?_⟩
          rw [ha, keys_append]
          exact List.mem_append_left _ h
  induction n with
  | zero => intro t k _ h; exact absurd h (Nat.not_lt_zero _)
  | succ n ih =>
    intro t k hk hc
    unfold insertWith
    by_cases hl : (look t k).isSome
    · rw [if_pos hl]; simp
    · rw [if_neg hl]
      have hkt : k ∉ keys t := fun h => hl ((look_isSome t k).mpr h)
      cases hs : (body k).starts with
      | false => simp
      | true =>
        simp only [Bool.not_true, Bool.false_eq_true, if_false]
        have hlt : (S \ (keys (t ++ [(k, (none : Option F))])).toFinset).card < n := by
          refine lt_of_lt_of_le ?_ (Nat.lt_succ_iff.mp hc)
          apply Finset.card_lt_card
          rw [Finset.ssubset_iff_of_subset]
          · refine ⟨k, ?_, ?_⟩
            · rw [Finset.mem_sdiff, List.mem_toFinset]
              exact ⟨hk, hkt⟩
            · rw [Finset.mem_sdiff, List.mem_toFinset, keys_append]
              intro h
              exact h.2 (List.mem_append_right _ (by simp [keys]))
          · intro x hx
            rw [Finset.mem_sdiff, List.mem_toFinset] at hx ⊢
            refine ⟨hx.1, fun h => hx.2 ?_⟩
            rw [keys_append]
            exact List.mem_append_left _ h
        have := hrun n ih (body k).requests (t ++ [(k, none)]) (hS k hk) hlt
        generalize runAll (insertWith body n) (t ++ [(k, none)]) (body k).requests = r at *
        obtain ⟨t', o⟩ := r
        cases o with
        | fuel => exact absurd rfl this
        | err => simp
        | ok =>
          simp only
          cases (body k).result <;> simp

theorem runAll_fuel (body : K → Body K F) (S : Finset K) (hS : ∀ s ∈ S, ∀ r ∈ (body s).requests, r ∈ S)
    (n : Nat) (ks : List K) (t : Table K F) (hks : ∀ k ∈ ks, k ∈ S) (hc : (S \ (keys t).toFinset).card < n) :
    (runAll (insertWith body n) t ks).2 ≠ .fuel := by
  induction ks generalizing t with
  | nil => intro h; cases h
  | cons k ks ih =>
    unfold runAll
    have h1 := insertWith_fuel body S hS n t k (hks k (by simp)) hc
    have h2 := (insertWith_step body n t k).added
    cases hr : insertWith body n t k with
    | mk t' o =>
      rw [hr] at h1 h2
      cases o with
      | fuel => exact absurd rfl h1
      | err => simp
      | ok =>
        simp only
        obtain ⟨a, ha, -, -⟩ := h2
        simp only at ha
        refine ih t' (fun x hx => hks x (List.mem_cons_of_mem _ hx)) (lt_of_le_of_lt ?_ hc)
        apply Finset.card_le_card
        intro x hx
        rw [Finset.mem_sdiff, List.mem_toFinset] at hx ⊢
        refine ⟨hx.1, fun h => hx.2 ?_⟩
        rw [ha, keys_append]
        exact List.mem_append_left _ h

end Verif.OpMap
