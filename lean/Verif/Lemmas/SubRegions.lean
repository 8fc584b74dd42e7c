import Verif.Model.SubRegionsSpec
import Mathlib.Data.List.Perm.Basic
import Mathlib.Data.List.Nodup

namespace Verif.SubRegions

/-! ### Trees -/

theorem node_mem {t : Forest} {s : Sub} (h : Node t s) : s.id ∈ t.ids := by
  induction h with
  | here => simp [Forest.ids]
  | down _ ih => simp [Forest.ids, ih]
  | next _ ih => simp [Forest.ids, ih]

theorem mem_node {t : Forest} {n : Nat} (h : n ∈ t.ids) : ∃ d ks, Node t ⟨n, d, ks⟩ := by
  induction t with
  | nil => simp [Forest.ids] at h
  | cons i d ks r ih1 ih2 =>
    simp only [Forest.ids, List.mem_cons, List.mem_append] at h
    rcases h with rfl | h | h
    · exact ⟨_, _, .here⟩
    · obtain ⟨d, ks, h⟩ := ih1 h
      exact ⟨_, _, .down h⟩
    · obtain ⟨d, ks, h⟩ := ih2 h
      exact ⟨_, _, .next h⟩

theorem nodup_cons {i : Nat} {d : Bool} {ks r : Forest} (h : (Forest.cons i d ks r).ids.Nodup) :
    i ∉ ks.ids ∧ i ∉ r.ids ∧ ks.ids.Nodup ∧ r.ids.Nodup ∧ ∀ n, n ∈ ks.ids → n ∉ r.ids := by
  simp only [Forest.ids, List.nodup_cons, List.mem_append, not_or, List.nodup_append] at h
  exact ⟨h.1.1, h.1.2, h.2.1, h.2.2.1, fun n h1 h2 => h.2.2.2 n h1 n h2 rfl⟩

theorem node_unique {t : Forest} (hn : t.ids.Nodup) {s s' : Sub} (h : Node t s) (h' : Node t s')
    (he : s.id = s'.id) : s = s' := by
  induction t with
  | nil => cases h
  | cons i d ks r ih1 ih2 =>
    obtain ⟨h1, h2, h3, h4, h5⟩ := nodup_cons hn
    cases h with
    | here =>
      have he : i = s'.id := he
      cases h' with
      | here => rfl
      | down h' => exact absurd (he ▸ node_mem h') h1
      | next h' => exact absurd (he ▸ node_mem h') h2
    | down h =>
      cases h' with
      | here => exact absurd ((show s.id = i from he) ▸ node_mem h) h1
      | down h' => exact ih1 h3 h h'
      | next h' => exact absurd (he ▸ node_mem h') (h5 _ (node_mem h))
    | next h =>
      cases h' with
      | here => exact absurd ((show s.id = i from he) ▸ node_mem h) h2
      | down h' => exact absurd (node_mem h) (h5 _ (he ▸ node_mem h'))
      | next h' => exact ih2 h4 h h'

theorem top_node {t : Forest} {s : Sub} (h : s ∈ t.tops) : Node t s := by
  induction t with
  | nil => simp [Forest.tops] at h
  | cons i d ks r _ ih =>
    simp only [Forest.tops, List.mem_cons] at h
    rcases h with rfl | h
    · exact .here
    · exact .next (ih h)

theorem top_inner {t : Forest} {s : Sub} {x : Nat} (h : s ∈ t.tops) (hx : x ∈ s.kids.ids) :
    x ∈ t.ids := by
  induction t with
  | nil => simp [Forest.tops] at h
  | cons i d ks r _ ih =>
    simp only [Forest.tops, List.mem_cons] at h
    rcases h with rfl | h
    · simp [Forest.ids, hx]
    · simp [Forest.ids, ih h]

theorem tops_nodup {t : Forest} (hn : t.ids.Nodup) : (t.tops.map Sub.id).Nodup := by
  induction t with
  | nil => simp [Forest.tops]
  | cons i d ks r _ ih =>
    obtain ⟨_, h2, _, h4, _⟩ := nodup_cons hn
    simp only [Forest.tops, List.map_cons, List.nodup_cons]
    refine ⟨?_, ih h4⟩
    intro h
    obtain ⟨s, hs, rfl⟩ := List.mem_map.mp h
    exact h2 (node_mem (top_node hs))

theorem get_some {t : Forest} {k : Nat} {s : Sub} (h : t.get k = some s) :
    s ∈ t.tops ∧ s.id = k := by
  induction t with
  | nil => cases h
  | cons i d ks r _ ih =>
    rw [Forest.get] at h
    split at h
    · rename_i hi
      cases h
      exact ⟨by simp [Forest.tops], hi⟩
    · have := ih h
      exact ⟨by simp [Forest.tops, this.1], this.2⟩

theorem get_mem {t : Forest} (hn : (t.tops.map Sub.id).Nodup) {s : Sub} (h : s ∈ t.tops) :
    t.get s.id = some s := by
  induction t with
  | nil => simp [Forest.tops] at h
  | cons i d ks r _ ih =>
    simp only [Forest.tops, List.mem_cons] at h
    simp only [Forest.tops, List.map_cons, List.nodup_cons] at hn
    rw [Forest.get]
    rcases h with rfl | h
    · simp
    · rw [if_neg, ih hn.2 h]
      rintro rfl
      exact hn.1 (List.mem_map.mpr ⟨s, h, rfl⟩)

theorem get_isSome {t : Forest} {k : Nat} : (t.get k).isSome ↔ k ∈ t.tops.map Sub.id := by
  induction t with
  | nil => simp [Forest.get, Forest.tops]
  | cons i d ks r _ ih =>
    rw [Forest.get, Forest.tops, List.map_cons, List.mem_cons]
    split
    · rename_i h; simp [h]
    · rename_i h
      rw [ih]
      constructor
      · exact Or.inr
      · rintro (h' | h')
        · exact absurd h'.symm h
        · exact h'

theorem kidsOf_none {t : Forest} {n : Nat} : t.kidsOf n = none ↔ n ∉ t.ids := by
  induction t with
  | nil => simp [Forest.kidsOf, Forest.ids]
  | cons i d ks r ih1 ih2 =>
    rw [Forest.kidsOf]
    simp only [Forest.ids, List.mem_cons, List.mem_append, not_or]
    split
    · rename_i h; simp [h]
    · rename_i h
      split
      · rename_i f hf
        have : n ∈ ks.ids := by
          by_contra hc
          rw [ih1.mpr hc] at hf
          cases hf
        simp [this]
      · rename_i hf
        rw [ih2]
        exact ⟨fun h' => ⟨fun e => h e.symm, ih1.mp hf, h'⟩, fun h' => h'.2.2⟩

theorem kidsOf_node {t : Forest} {n : Nat} {ks : Forest} (h : t.kidsOf n = some ks) :
    ∃ d, Node t ⟨n, d, ks⟩ := by
  induction t with
  | nil => cases h
  | cons i d ks' r ih1 ih2 =>
    rw [Forest.kidsOf] at h
    split at h
    · rename_i hi
      cases h
      subst hi
      exact ⟨d, .here⟩
    · split at h
      · rename_i f hf
        cases h
        obtain ⟨d, h⟩ := ih1 hf
        exact ⟨d, .down h⟩
      · obtain ⟨d, h⟩ := ih2 h
        exact ⟨d, .next h⟩

theorem node_kidsOf {t : Forest} (hn : t.ids.Nodup) {s : Sub} (h : Node t s) :
    t.kidsOf s.id = some s.kids := by
  cases hk : t.kidsOf s.id with
  | none => exact absurd (node_mem h) (kidsOf_none.mp hk)
  | some ks =>
    obtain ⟨d, h'⟩ := kidsOf_node hk
    rw [← node_unique hn h' h rfl]

theorem node_nodup {t : Forest} (hn : t.ids.Nodup) {s : Sub} (h : Node t s) : s.kids.ids.Nodup := by
  induction h with
  | here => exact (nodup_cons hn).2.2.1
  | down _ ih => exact ih (nodup_cons hn).2.2.1
  | next _ ih => exact ih (nodup_cons hn).2.2.2.1

theorem inside_mem {t : Forest} {a c n : Nat} (h : Inside t a c n) :
    a ∈ t.ids ∧ n ∈ t.ids ∧ c ∈ t.ids := by
  induction h with
  | here s h1 h2 h3 =>
    subst h2
    have hm := node_mem (top_node h1)
    refine ⟨by simp [Forest.ids], ?_, by simp [Forest.ids, hm]⟩
    rcases h3 with rfl | h3
    · simp [Forest.ids, hm]
    · simp [Forest.ids, top_inner h1 h3]
  | down _ ih => simp [Forest.ids, ih]
  | next _ ih => simp [Forest.ids, ih]

/-! ### Encoding -/

theorem addCandidates_eq (q ss : List Sub) :
    addCandidates q ss = q ++ ss.filter fun s => s.kids ≠ .nil := by
  induction ss generalizing q with
  | nil => simp [addCandidates]
  | cons s ss ih =>
    rw [addCandidates, ih]
    by_cases h : s.kids = .nil <;> simp [h]

/-- The regions chosen below siblings of which some are candidates. -/
def pick (enc : Nat → Option (List Nat)) (subs : Bool) (allow : Nat → Bool) : Forest → List Nat
  | .nil => []
  | .cons i d ks r =>
    (if allow i = true ∧ ks ≠ .nil then
      (if d = true then
        i :: (if subs = true then pick enc subs (fun k => ((enc i).getD []).contains k) ks else [])
      else pick enc subs (fun _ => true) ks)
    else []) ++ pick enc subs allow r

/-- The regions chosen for a candidate. -/
def pickSub (enc : Nat → Option (List Nat)) (subs : Bool) (s : Sub) : List Nat :=
  if s.df = true then
    s.id :: (if subs = true then pick enc subs (fun k => ((enc s.id).getD []).contains k) s.kids
      else [])
  else pick enc subs (fun _ => true) s.kids

theorem pick_eq (enc : Nat → Option (List Nat)) (subs : Bool) (allow : Nat → Bool) (t : Forest) :
    pick enc subs allow t =
      (t.tops.filter fun s => allow s.id = true ∧ s.kids ≠ .nil).flatMap (pickSub enc subs) := by
  induction t with
  | nil => rfl
  | cons i d ks r _ ih =>
    rw [pick, ih, Forest.tops, List.filter_cons]
    by_cases h : allow i = true ∧ ks ≠ .nil
    · simp only [if_pos h, h.1, ne_eq, h.2, not_false_eq_true, and_self, decide_true, if_true,
        List.flatMap_cons]
      rfl
    · have h2 : decide (allow i = true ∧ ks ≠ .nil) = false := by simpa using h
      simp only [if_neg h]
      rw [h2]
      rfl

/-- Numbers of nodes. -/
def total (q : List Sub) : Nat := (q.map fun s => s.kids.ids.length + 1).sum

theorem total_append (a b : List Sub) : total (a ++ b) = total a + total b := by
  simp [total]

theorem total_perm {a b : List Sub} (h : a.Perm b) : total a = total b :=
  (h.map _).sum_nat

theorem total_filter (p : Sub → Bool) (a : List Sub) : total (a.filter p) ≤ total a := by
  induction a with
  | nil => simp
  | cons s a ih =>
    simp only [List.filter_cons]
    split
    · simp only [total, List.map_cons, List.sum_cons] at ih ⊢
      omega
    · simp only [total, List.map_cons, List.sum_cons] at ih ⊢
      omega

theorem total_tops (t : Forest) : total t.tops = t.ids.length := by
  induction t with
  | nil => rfl
  | cons i d ks r _ ih =>
    simp only [total, Forest.tops, List.map_cons, List.sum_cons, Forest.ids, List.length_cons,
      List.length_append] at ih ⊢
    omega

theorem filterMap_get {t : Forest} (hn : t.ids.Nodup) {opq : List Nat} (ho : opq.Nodup)
    (hs : ∀ k ∈ opq, k ∈ t.tops.map Sub.id) :
    (opq.filterMap fun k => t.get k).Perm (t.tops.filter fun s => opq.contains s.id) := by
  have htn := tops_nodup hn
  have h1 : (opq.filterMap fun k => t.get k).Nodup := by
    refine List.Nodup.filterMap ?_ ho
    intro a a' b h h'
    rw [← (get_some h).2, ← (get_some h').2]
  have h2 : (t.tops.filter fun s => opq.contains s.id).Nodup :=
    (List.Nodup.of_map _ htn).filter _
  rw [List.perm_ext_iff_of_nodup h1 h2]
  intro s
  simp only [List.mem_filterMap, List.mem_filter, List.contains_iff_mem]
  constructor
  · rintro ⟨k, hk, h⟩
    obtain ⟨h1, rfl⟩ := get_some h
    exact ⟨h1, hk⟩
  · rintro ⟨h, hk⟩
    exact ⟨s.id, hk, get_mem htn h⟩

/-- The opaque subgraphs of all regions of a candidate are fine. -/
def SubOk (enc : Nat → Option (List Nat)) (s : Sub) : Prop :=
  s.kids.ids.Nodup ∧ OpaqueOk enc s.kids ∧
    ∀ opq, s.df = true → enc s.id = some opq → opq.Nodup ∧ ∀ k ∈ opq, k ∈ s.kids.tops.map Sub.id

theorem subOk_top {enc : Nat → Option (List Nat)} {s : Sub} (h : SubOk enc s) {s' : Sub}
    (h' : s' ∈ s.kids.tops) : SubOk enc s' := by
  obtain ⟨h1, h2, _⟩ := h
  have hn := top_node h'
  refine ⟨node_nodup h1 hn, ?_, ?_⟩
  · intro n ks opq hk
    refine h2 n ks opq ?_
    clear h1 h2 hn
    generalize s.kids = t at h'
    induction t with
    | nil => simp [Forest.tops] at h'
    | cons i d ks r _ ih =>
      simp only [Forest.tops, List.mem_cons] at h'
      rcases h' with rfl | h'
      · exact .down hk
      · exact .next (ih h')
  · intro opq hd he
    obtain ⟨i, d, ks⟩ := s'
    subst hd
    exact h2 i ks opq hn he

theorem encodeLoop_spec (enc : Nat → Option (List Nat)) (subs : Bool) (fuel : Nat) (q : List Sub)
    (acc : List Nat) (hf : total q ≤ fuel) (hok : ∀ s ∈ q, SubOk enc s)
    (hn : (acc ++ q.flatMap (pickSub enc subs)).Nodup) :
    (∃ res, encodeLoop enc subs fuel q acc = .ok res ∧
      res.Perm (acc ++ q.flatMap (pickSub enc subs)) ∧
      ∀ n ∈ q.flatMap (pickSub enc subs), enc n ≠ none) ∨
    ∃ n, encodeLoop enc subs fuel q acc = .failed n ∧ n ∈ q.flatMap (pickSub enc subs) ∧
      enc n = none := by
  induction fuel generalizing q acc with
  | zero =>
    cases q with
    | nil => exact Or.inl ⟨acc, rfl, by simp, by simp⟩
    | cons s q => simp [total] at hf
  | succ fuel ih =>
    cases q with
    | nil => exact Or.inl ⟨acc, by simp [encodeLoop], by simp, by simp⟩
    | cons s q =>
      have hs := hok s List.mem_cons_self
      have hq : ∀ s ∈ q, SubOk enc s := fun s h => hok s (List.mem_cons_of_mem _ h)
      have ht : s.kids.ids.length + 1 + total q ≤ fuel + 1 := by
        simpa [total] using hf
      rw [encodeLoop]
      by_cases hd : s.df = false
      · rw [if_pos hd, addCandidates_eq]
        have hp : pickSub enc subs s = pick enc subs (fun _ => true) s.kids := by
          simp [pickSub, hd]
        have hp2 : pickSub enc subs s =
            (s.kids.tops.filter fun s => s.kids ≠ .nil).flatMap (pickSub enc subs) := by
          rw [hp, pick_eq]
          simp
        have hperm : ((q ++ s.kids.tops.filter fun s => s.kids ≠ .nil).flatMap
            (pickSub enc subs)).Perm ((s :: q).flatMap (pickSub enc subs)) := by
          rw [List.flatMap_append, List.flatMap_cons, hp2]
          exact List.perm_append_comm
        have := ih (q ++ s.kids.tops.filter fun s => s.kids ≠ .nil) acc ?_ ?_ ?_
        · rcases this with ⟨res, h1, h2, h3⟩ | ⟨n, h1, h2, h3⟩
          · exact Or.inl ⟨res, h1, h2.trans (hperm.append_left _),
              fun n hn => h3 n (hperm.mem_iff.mpr hn)⟩
          · exact Or.inr ⟨n, h1, hperm.mem_iff.mp h2, h3⟩
        · have h1 := total_filter (fun s => decide (s.kids ≠ .nil)) s.kids.tops
          rw [total_tops] at h1
          rw [total_append]
          omega
        · intro s' h
          rcases List.mem_append.mp h with h | h
          · exact hq s' h
          · exact subOk_top hs (List.mem_filter.mp h).1
        · exact ((hperm.append_left _).nodup_iff).mpr hn
      · rw [if_neg hd]
        have hd : s.df = true := by simpa using hd
        cases he : enc s.id with
        | none =>
          exact Or.inr ⟨s.id, by simp, by simp [pickSub, hd], he⟩
        | some opq =>
          obtain ⟨ho, hk⟩ := hs.2.2 opq hd he
          have hacc : s.id ∉ acc := by
            intro h
            rw [List.nodup_append] at hn
            exact hn.2.2 _ h _ (by simp [pickSub, hd]) rfl
          simp only [if_neg hacc]
          have hnew : ∃ new, (if subs = true then addCandidates q (opq.filterMap fun k => s.kids.get k)
              else q) = q ++ new ∧ total new ≤ s.kids.ids.length ∧ (∀ s' ∈ new, SubOk enc s') ∧
              (s.id :: new.flatMap (pickSub enc subs)).Perm (pickSub enc subs s) := by
            cases subs with
            | false => exact ⟨[], by simp, by simp [total], by simp, by simp [pickSub, hd]⟩
            | true =>
              have hp := (filterMap_get hs.1 ho hk).filter fun s => decide (s.kids ≠ .nil)
              refine ⟨_, by rw [if_pos rfl, addCandidates_eq], ?_, ?_, ?_⟩
              · rw [total_perm hp]
                refine Nat.le_trans (total_filter _ _) (Nat.le_trans (total_filter _ _) ?_)
                exact Nat.le_of_eq (total_tops _)
              · intro s' h
                rw [hp.mem_iff] at h
                exact subOk_top hs (List.mem_filter.mp (List.mem_filter.mp h).1).1
              · rw [pickSub, if_pos hd, if_pos rfl, pick_eq]
                refine List.Perm.cons _ ?_
                refine (hp.flatMap_right _).trans ?_
                rw [List.filter_filter]
                refine List.Perm.of_eq ?_
                congr 1
                refine List.filter_congr fun s' _ => ?_
                simp [he, Bool.and_comm]
          obtain ⟨new, e1, e2, e3, e4⟩ := hnew
          rw [e1]
          have hperm : (acc ++ [s.id] ++ (q ++ new).flatMap (pickSub enc subs)).Perm
              (acc ++ (s :: q).flatMap (pickSub enc subs)) := by
            rw [List.append_assoc]
            refine List.Perm.append_left _ ?_
            rw [List.flatMap_append, List.flatMap_cons]
            refine List.Perm.trans ?_ (e4.append_right _)
            simp only [List.cons_append, List.nil_append]
            exact List.Perm.cons _ List.perm_append_comm
          have hsub : ∀ n, n ∈ (s :: q).flatMap (pickSub enc subs) ↔
              n = s.id ∨ n ∈ (q ++ new).flatMap (pickSub enc subs) := by
            intro n
            rw [List.flatMap_cons, List.mem_append, ← e4.mem_iff, List.flatMap_append,
              List.mem_append, List.mem_cons]
            constructor
            · rintro ((h | h) | h)
              · exact Or.inl h
              · exact Or.inr (Or.inr h)
              · exact Or.inr (Or.inl h)
            · rintro (h | h | h)
              · exact Or.inl (Or.inl h)
              · exact Or.inr h
              · exact Or.inl (Or.inr h)
          have := ih (q ++ new) (acc ++ [s.id]) ?_ ?_ ?_
          · rcases this with ⟨res, h1, h2, h3⟩ | ⟨n, h1, h2, h3⟩
            · refine Or.inl ⟨res, h1, h2.trans hperm, fun n hn => ?_⟩
              rcases (hsub n).mp hn with rfl | h
              · simp [he]
              · exact h3 n h
            · exact Or.inr ⟨n, h1, (hsub n).mpr (Or.inr h2), h3⟩
          · rw [total_append]
            omega
          · intro s' h
            rcases List.mem_append.mp h with h | h
            · exact hq s' h
            · exact e3 s' h
          · exact hperm.nodup_iff.mpr hn

theorem inside_cons {i : Nat} {d : Bool} {ks r : Forest} {a c n : Nat} :
    Inside (.cons i d ks r) a c n ↔
      (a = i ∧ ∃ s ∈ ks.tops, s.id = c ∧ (n = c ∨ n ∈ s.kids.ids)) ∨ Inside ks a c n ∨
        Inside r a c n := by
  constructor
  · intro h
    cases h with
    | here s h1 h2 h3 => exact Or.inl ⟨rfl, s, h1, h2, h3⟩
    | down h => exact Or.inr (Or.inl h)
    | next h => exact Or.inr (Or.inr h)
  · rintro (⟨rfl, s, h1, h2, h3⟩ | h | h)
    · exact .here s h1 h2 h3
    · exact .down h
    · exact .next h

theorem node_cons {i : Nat} {d : Bool} {ks r : Forest} {s : Sub} :
    Node (.cons i d ks r) s ↔ s = ⟨i, d, ks⟩ ∨ Node ks s ∨ Node r s := by
  constructor
  · intro h
    cases h with
    | here => exact Or.inl rfl
    | down h => exact Or.inr (Or.inl h)
    | next h => exact Or.inr (Or.inr h)
  · rintro (rfl | h | h)
    · exact .here
    · exact .down h
    · exact .next h

/-- The condition on the regions around a region. -/
def Around (enc : Nat → Option (List Nat)) (subs : Bool) (t : Forest) (n : Nat) : Prop :=
  ∀ a c ks, Node t ⟨a, true, ks⟩ → Inside t a c n →
    subs = true ∧ ∃ opq, enc a = some opq ∧ c ∈ opq

theorem mem_top_ids {t : Forest} {n : Nat} (h : n ∈ t.ids) :
    ∃ s ∈ t.tops, n = s.id ∨ n ∈ s.kids.ids := by
  induction t with
  | nil => simp [Forest.ids] at h
  | cons i d ks r _ ih =>
    simp only [Forest.ids, List.mem_cons, List.mem_append] at h
    rcases h with h | h | h
    · exact ⟨⟨i, d, ks⟩, by simp [Forest.tops], Or.inl h⟩
    · exact ⟨⟨i, d, ks⟩, by simp [Forest.tops], Or.inr h⟩
    · obtain ⟨s, hs, h⟩ := ih h
      exact ⟨s, by simp [Forest.tops, hs], h⟩

theorem ne_nil_of_mem {t : Forest} {n : Nat} (h : n ∈ t.ids) : t ≠ .nil := by
  rintro rfl
  simp [Forest.ids] at h

theorem top_disjoint {t : Forest} (hn : t.ids.Nodup) {s s' : Sub} (h : s ∈ t.tops)
    (h' : s' ∈ t.tops) {n : Nat} (hx : n = s.id ∨ n ∈ s.kids.ids)
    (hx' : n = s'.id ∨ n ∈ s'.kids.ids) : s.id = s'.id := by
  induction t with
  | nil => simp [Forest.tops] at h
  | cons i d ks r _ ih =>
    obtain ⟨h1, h2, h3, h4, h5⟩ := nodup_cons hn
    have key : ∀ s'' : Sub, s'' ∈ r.tops → (n = s''.id ∨ n ∈ s''.kids.ids) →
        ¬ (n = i ∨ n ∈ ks.ids) := by
      intro s'' hs hx h
      have hr : n ∈ r.ids := by
        rcases hx with rfl | hx
        · exact node_mem (top_node hs)
        · exact top_inner hs hx
      rcases h with rfl | h
      · exact h2 hr
      · exact h5 _ h hr
    simp only [Forest.tops, List.mem_cons] at h h'
    rcases h with rfl | h
    · rcases h' with rfl | h'
      · rfl
      · exact absurd hx (key s' h' hx')
    · rcases h' with rfl | h'
      · exact absurd hx' (key s h hx)
      · exact ih h4 h h'

/-- What is inside a node with siblings, for nodes that are below the first. -/
theorem around_down {enc : Nat → Option (List Nat)} {subs : Bool} {i : Nat} {d : Bool}
    {ks r : Forest} {n : Nat} (hn : (Forest.cons i d ks r).ids.Nodup) (hm : n ∈ ks.ids) :
    Around enc subs (.cons i d ks r) n ↔
      (d = true → ∃ s ∈ ks.tops, (n = s.id ∨ n ∈ s.kids.ids) ∧
        subs = true ∧ ∃ opq, enc i = some opq ∧ s.id ∈ opq) ∧ Around enc subs ks n := by
  obtain ⟨h1, h2, h3, h4, h5⟩ := nodup_cons hn
  constructor
  · intro h
    refine ⟨fun hd => ?_, fun a c ks' ha hi => h a c ks' (.down ha) (.down hi)⟩
    subst hd
    obtain ⟨s, hs, h'⟩ := mem_top_ids hm
    exact ⟨s, hs, h', h i s.id ks .here (.here s hs rfl h')⟩
  · rintro ⟨h, h'⟩ a c ks' ha hi
    rcases inside_cons.mp hi with ⟨rfl, s, hs, rfl, hx⟩ | hi | hi
    · rcases node_cons.mp ha with he | ha | ha
      · simp only [Sub.mk.injEq] at he
        obtain ⟨_, rfl, _⟩ := he
        obtain ⟨s', hs', hx', h⟩ := h rfl
        have : s' = s := by
          have e : s'.id = s.id := by
            by_contra hne
            exact hne (top_disjoint h3 hs' hs hx' hx)
          exact node_unique h3 (top_node hs') (top_node hs) e
        exact this ▸ h
      · exact absurd (node_mem ha) h1
      · exact absurd (node_mem ha) h2
    · refine h' a c ks' ?_ hi
      have hka := (inside_mem hi).1
      rcases node_cons.mp ha with he | ha | ha
      · simp only [Sub.mk.injEq] at he
        exact absurd (he.1 ▸ hka) h1
      · exact ha
      · exact absurd (node_mem ha) (h5 _ hka)
    · exact absurd (inside_mem hi).2.1 (h5 _ hm)

theorem around_next {enc : Nat → Option (List Nat)} {subs : Bool} {i : Nat} {d : Bool}
    {ks r : Forest} {n : Nat} (hn : (Forest.cons i d ks r).ids.Nodup) (hm : n ∈ r.ids) :
    Around enc subs (.cons i d ks r) n ↔ Around enc subs r n := by
  obtain ⟨h1, h2, h3, h4, h5⟩ := nodup_cons hn
  constructor
  · intro h a c ks' ha hi
    exact h a c ks' (.next ha) (.next hi)
  · intro h a c ks' ha hi
    rcases inside_cons.mp hi with ⟨rfl, s, hs, rfl, hx⟩ | hi | hi
    · exfalso
      rcases hx with rfl | hx
      · exact h5 _ (node_mem (top_node hs)) hm
      · exact h5 _ (top_inner hs hx) hm
    · exact absurd hm (h5 _ (inside_mem hi).2.1)
    · refine h a c ks' ?_ hi
      have hka := (inside_mem hi).1
      rcases node_cons.mp ha with he | ha | ha
      · simp only [Sub.mk.injEq] at he
        exact absurd (he.1 ▸ hka) h2
      · exact absurd hka (h5 _ (node_mem ha))
      · exact ha

theorem around_here {enc : Nat → Option (List Nat)} {subs : Bool} {i : Nat} {d : Bool}
    {ks r : Forest} (hn : (Forest.cons i d ks r).ids.Nodup) :
    Around enc subs (.cons i d ks r) i := by
  obtain ⟨h1, h2, h3, h4, h5⟩ := nodup_cons hn
  intro a c ks' _ hi
  exfalso
  rcases inside_cons.mp hi with ⟨rfl, s, hs, rfl, hx⟩ | hi | hi
  · rcases hx with rfl | hx
    · exact h1 (node_mem (top_node hs))
    · exact h1 (top_inner hs hx)
  · exact h1 (inside_mem hi).2.1
  · exact h2 (inside_mem hi).2.1

theorem mem_pick {enc : Nat → Option (List Nat)} {subs : Bool} {t : Forest} (hn : t.ids.Nodup)
    (allow : Nat → Bool) (n : Nat) : n ∈ pick enc subs allow t ↔
      (∃ ks, Node t ⟨n, true, ks⟩ ∧ ks ≠ .nil) ∧
      (∃ s ∈ t.tops, allow s.id = true ∧ (n = s.id ∨ n ∈ s.kids.ids)) ∧ Around enc subs t n := by
  induction t generalizing allow with
  | nil =>
    simp only [pick, List.not_mem_nil, Forest.tops, false_iff]
    rintro ⟨⟨_, h, _⟩, _⟩
    cases h
  | cons i d ks r ih1 ih2 =>
    obtain ⟨h1, h2, h3, h4, h5⟩ := nodup_cons hn
    rw [pick, List.mem_append, ih2 h4 allow]
    by_cases hni : n = i
    · subst hni
      have hr : ¬ ((∃ ks, Node r ⟨n, true, ks⟩ ∧ ks ≠ .nil) ∧
          (∃ s ∈ r.tops, allow s.id = true ∧ (n = s.id ∨ n ∈ s.kids.ids)) ∧ Around enc subs r n) := by
        rintro ⟨⟨_, h, _⟩, _⟩
        exact h2 (node_mem h)
      have hl : (∃ ks', Node (.cons n d ks r) ⟨n, true, ks'⟩ ∧ ks' ≠ .nil) ↔ d = true ∧ ks ≠ .nil := by
        constructor
        · rintro ⟨ks', h, hk⟩
          have := node_unique hn h .here rfl
          simp only [Sub.mk.injEq, true_and] at this
          exact ⟨this.1.symm, this.2 ▸ hk⟩
        · rintro ⟨rfl, hk⟩
          exact ⟨ks, .here, hk⟩
      have hm : (∃ s ∈ (Forest.cons n d ks r).tops, allow s.id = true ∧ (n = s.id ∨ n ∈ s.kids.ids)) ↔
          allow n = true := by
        constructor
        · rintro ⟨s, hs, ha, hx⟩
          have e : s.id = n := by
            by_contra hne
            exact hne (top_disjoint hn hs (s' := ⟨n, d, ks⟩) (by simp [Forest.tops]) hx (Or.inl rfl))
          rw [← e]; exact ha
        · intro h
          exact ⟨⟨n, d, ks⟩, by simp [Forest.tops], h, Or.inl rfl⟩
      have hpk : ∀ allow, n ∉ pick enc subs allow ks := by
        intro allow h
        obtain ⟨⟨_, h, _⟩, _⟩ := (ih1 h3 allow).mp h
        exact h1 (node_mem h)
      rw [hl, hm]
      have ha := around_here (enc := enc) (subs := subs) hn
      constructor
      · rintro (h | h)
        · split at h
          · rename_i hc
            split at h
            · rename_i hd
              exact ⟨⟨hd, hc.2⟩, hc.1, ha⟩
            · exact absurd h (hpk _)
          · simp at h
        · exact absurd h hr
      · rintro ⟨⟨rfl, hk⟩, hal, _⟩
        left
        simp [hal, hk]
    · by_cases hnk : n ∈ ks.ids
      · have hr : ¬ ((∃ ks, Node r ⟨n, true, ks⟩ ∧ ks ≠ .nil) ∧
            (∃ s ∈ r.tops, allow s.id = true ∧ (n = s.id ∨ n ∈ s.kids.ids)) ∧ Around enc subs r n) := by
          rintro ⟨⟨_, h, _⟩, _⟩
          exact h5 _ hnk (node_mem h)
        have hl : (∃ ks', Node (.cons i d ks r) ⟨n, true, ks'⟩ ∧ ks' ≠ .nil) ↔
            ∃ ks', Node ks ⟨n, true, ks'⟩ ∧ ks' ≠ .nil := by
          constructor
          · rintro ⟨ks', h, hk⟩
            rcases node_cons.mp h with he | h | h
            · simp only [Sub.mk.injEq] at he
              exact absurd he.1 hni
            · exact ⟨ks', h, hk⟩
            · exact absurd (node_mem h) (h5 _ hnk)
          · rintro ⟨ks', h, hk⟩
            exact ⟨ks', .down h, hk⟩
        have hm : (∃ s ∈ (Forest.cons i d ks r).tops, allow s.id = true ∧
            (n = s.id ∨ n ∈ s.kids.ids)) ↔ allow i = true := by
          constructor
          · rintro ⟨s, hs, ha, hx⟩
            have e : s.id = i := by
              by_contra hne
              exact hne (top_disjoint hn hs (s' := ⟨i, d, ks⟩) (by simp [Forest.tops]) hx
                (Or.inr hnk))
            rw [← e]; exact ha
          · intro h
            exact ⟨⟨i, d, ks⟩, by simp [Forest.tops], h, Or.inr hnk⟩
        rw [hl, hm, around_down hn hnk, or_iff_left hr]
        have hne := ne_nil_of_mem hnk
        by_cases hal : allow i = true
        · rw [if_pos ⟨hal, hne⟩]
          cases d with
          | false =>
            simp only [Bool.false_eq_true, if_false, false_implies, true_and, hal]
            rw [ih1 h3]
            constructor
            · rintro ⟨a, _, b⟩
              exact ⟨a, b⟩
            · rintro ⟨a, b⟩
              obtain ⟨s, hs, hx⟩ := mem_top_ids hnk
              exact ⟨a, ⟨s, hs, rfl, hx⟩, b⟩
          | true =>
            simp only [if_true, true_implies, hal, true_and, List.mem_cons, hni, false_or]
            cases subs with
            | false =>
              simp
            | true =>
              simp only [if_true, true_and]
              rw [ih1 h3]
              constructor
              · rintro ⟨a, ⟨s, hs, hc, hx⟩, b⟩
                refine ⟨a, ⟨s, hs, hx, ?_⟩, b⟩
                cases he : enc i with
                | none => rw [he] at hc; simp at hc
                | some opq =>
                  rw [he] at hc
                  exact ⟨opq, rfl, by simpa using hc⟩
              · rintro ⟨a, ⟨s, hs, hx, opq, he, hc⟩, b⟩
                exact ⟨a, ⟨s, hs, by simpa [he] using hc, hx⟩, b⟩
        · rw [if_neg (fun h => hal h.1)]
          simp [hal]
      · have hl : ∀ x, x ∈ (if allow i = true ∧ ks ≠ .nil then
            (if d = true then
              i :: (if subs = true then pick enc subs (fun k => ((enc i).getD []).contains k) ks else [])
            else pick enc subs (fun _ => true) ks)
            else []) → x ≠ n := by
          rintro x hx rfl
          have hpk : ∀ allow, x ∉ pick enc subs allow ks := by
            intro allow h
            obtain ⟨⟨_, h, _⟩, _⟩ := (ih1 h3 allow).mp h
            exact hnk (node_mem h)
          split at hx
          · split at hx
            · rw [List.mem_cons] at hx
              rcases hx with rfl | hx
              · exact hni rfl
              · split at hx
                · exact hpk _ hx
                · simp at hx
            · exact hpk _ hx
          · simp at hx
        rw [or_iff_right (fun h => hl n h rfl)]
        by_cases hnr : n ∈ r.ids
        · rw [around_next hn hnr]
          have e1 : (∃ ks', Node (.cons i d ks r) ⟨n, true, ks'⟩ ∧ ks' ≠ .nil) ↔
              ∃ ks', Node r ⟨n, true, ks'⟩ ∧ ks' ≠ .nil := by
            constructor
            · rintro ⟨ks', h, hk⟩
              rcases node_cons.mp h with he | h | h
              · simp only [Sub.mk.injEq] at he
                exact absurd he.1 hni
              · exact absurd (node_mem h) hnk
              · exact ⟨ks', h, hk⟩
            · rintro ⟨ks', h, hk⟩
              exact ⟨ks', .next h, hk⟩
          have e2 : (∃ s ∈ (Forest.cons i d ks r).tops, allow s.id = true ∧
              (n = s.id ∨ n ∈ s.kids.ids)) ↔
              ∃ s ∈ r.tops, allow s.id = true ∧ (n = s.id ∨ n ∈ s.kids.ids) := by
            simp only [Forest.tops, List.mem_cons]
            constructor
            · rintro ⟨s, rfl | hs, ha, hx⟩
              · rcases hx with hx | hx
                · exact absurd hx hni
                · exact absurd hx hnk
              · exact ⟨s, hs, ha, hx⟩
            · rintro ⟨s, hs, ha, hx⟩
              exact ⟨s, Or.inr hs, ha, hx⟩
          rw [e1, e2]
        · constructor
          · rintro ⟨⟨_, h, _⟩, _⟩
            exact absurd (node_mem h) hnr
          · rintro ⟨⟨ks', h, _⟩, _⟩
            rcases node_cons.mp h with he | h | h
            · simp only [Sub.mk.injEq] at he
              exact absurd he.1 hni
            · exact absurd (node_mem h) hnk
            · exact absurd (node_mem h) hnr

theorem pick_nodup {enc : Nat → Option (List Nat)} {subs : Bool} {t : Forest} (hn : t.ids.Nodup)
    (allow : Nat → Bool) : (pick enc subs allow t).Nodup := by
  induction t generalizing allow with
  | nil => simp [pick]
  | cons i d ks r ih1 ih2 =>
    obtain ⟨h1, h2, h3, h4, h5⟩ := nodup_cons hn
    have hk : ∀ allow, ∀ x ∈ pick enc subs allow ks, x ∈ ks.ids := by
      intro allow x hx
      obtain ⟨⟨_, h, _⟩, _⟩ := (mem_pick h3 allow x).mp hx
      exact node_mem h
    have hr : ∀ x ∈ pick enc subs allow r, x ∈ r.ids := by
      intro x hx
      obtain ⟨⟨_, h, _⟩, _⟩ := (mem_pick h4 allow x).mp hx
      exact node_mem h
    have hl : (if allow i = true ∧ ks ≠ .nil then
        (if d = true then
          i :: (if subs = true then pick enc subs (fun k => ((enc i).getD []).contains k) ks else [])
        else pick enc subs (fun _ => true) ks)
        else []).Nodup ∧ ∀ x ∈ (if allow i = true ∧ ks ≠ .nil then
        (if d = true then
          i :: (if subs = true then pick enc subs (fun k => ((enc i).getD []).contains k) ks else [])
        else pick enc subs (fun _ => true) ks)
        else []), x = i ∨ x ∈ ks.ids := by
      split
      · split
        · split
          · refine ⟨List.nodup_cons.mpr ⟨fun h => h1 (hk _ _ h), ih1 h3 _⟩, ?_⟩
            intro x hx
            rcases List.mem_cons.mp hx with h | h
            · exact Or.inl h
            · exact Or.inr (hk _ _ h)
          · simp
        · exact ⟨ih1 h3 _, fun x hx => Or.inr (hk _ _ hx)⟩
      · simp
    rw [pick, List.nodup_append]
    refine ⟨hl.1, ih2 h4 _, ?_⟩
    rintro a ha b hb rfl
    rcases hl.2 a ha with rfl | h
    · exact h2 (hr _ hb)
    · exact h5 _ h (hr _ hb)

theorem mem_pickSub {enc : Nat → Option (List Nat)} {subs : Bool} {s : Sub}
    (hn : s.tree.ids.Nodup) (n : Nat) : n ∈ pickSub enc subs s ↔ Wanted enc subs s n := by
  obtain ⟨h1, h2, h3, h4, h5⟩ := nodup_cons hn
  have hw : Wanted enc subs s n ↔ (∃ ks, Node s.tree ⟨n, true, ks⟩ ∧ (n = s.id ∨ ks ≠ .nil)) ∧
      Around enc subs s.tree n := Iff.rfl
  rw [hw]
  by_cases hni : n = s.id
  · subst hni
    have ha : Around enc subs s.tree s.id := around_here hn
    have hpk : ∀ allow, s.id ∉ pick enc subs allow s.kids := by
      intro allow h
      obtain ⟨⟨_, h, _⟩, _⟩ := (mem_pick h3 allow _).mp h
      exact h1 (show (⟨s.id, true, _⟩ : Sub).id ∈ _ from node_mem h)
    have hl : (∃ ks, Node s.tree ⟨s.id, true, ks⟩ ∧ (s.id = s.id ∨ ks ≠ .nil)) ↔ s.df = true := by
      constructor
      · rintro ⟨ks, h, _⟩
        have := node_unique hn h .here rfl
        simp only [Sub.mk.injEq, true_and] at this
        exact this.1.symm
      · intro h
        refine ⟨s.kids, ?_, Or.inl rfl⟩
        rw [← h]
        exact .here
    rw [hl]
    rw [pickSub]
    split
    · rename_i hd
      simp [hd, ha]
    · rename_i hd
      simp [hd, hpk]
  · have hl : (∃ ks, Node s.tree ⟨n, true, ks⟩ ∧ (n = s.id ∨ ks ≠ .nil)) ↔
        ∃ ks, Node s.kids ⟨n, true, ks⟩ ∧ ks ≠ .nil := by
      constructor
      · rintro ⟨ks', h, hk⟩
        rcases node_cons.mp h with he | h | h
        · simp only [Sub.mk.injEq] at he
          exact absurd he.1 hni
        · exact ⟨ks', h, hk.resolve_left hni⟩
        · cases h
      · rintro ⟨ks', h, hk⟩
        exact ⟨ks', .down h, Or.inr hk⟩
    rw [hl]
    by_cases hnk : n ∈ s.kids.ids
    · rw [Sub.tree, around_down hn hnk, pickSub]
      cases hd : s.df with
      | false =>
        simp only [Bool.false_eq_true, if_false, false_implies, true_and]
        rw [mem_pick h3]
        constructor
        · rintro ⟨a, _, b⟩
          exact ⟨a, b⟩
        · rintro ⟨a, b⟩
          obtain ⟨s', hs, hx⟩ := mem_top_ids hnk
          exact ⟨a, ⟨s', hs, rfl, hx⟩, b⟩
      | true =>
        simp only [if_true, true_implies, List.mem_cons, hni, false_or]
        cases subs with
        | false => simp
        | true =>
          simp only [if_true, true_and]
          rw [mem_pick h3]
          constructor
          · rintro ⟨a, ⟨s', hs, hc, hx⟩, b⟩
            refine ⟨a, ⟨s', hs, hx, ?_⟩, b⟩
            cases he : enc s.id with
            | none => rw [he] at hc; simp at hc
            | some opq =>
              rw [he] at hc
              exact ⟨opq, rfl, by simpa using hc⟩
          · rintro ⟨a, ⟨s', hs, hx, opq, he, hc⟩, b⟩
            exact ⟨a, ⟨s', hs, by simpa [he] using hc, hx⟩, b⟩
    · have hpk : ∀ allow, n ∉ pick enc subs allow s.kids := by
        intro allow h
        obtain ⟨⟨_, h, _⟩, _⟩ := (mem_pick h3 allow _).mp h
        exact hnk (node_mem h)
      constructor
      · intro h
        exfalso
        rw [pickSub] at h
        split at h
        · rw [List.mem_cons] at h
          rcases h with h | h
          · exact hni h
          · split at h
            · exact hpk _ h
            · simp at h
        · exact hpk _ h
      · rintro ⟨⟨_, h, _⟩, _⟩
        exact absurd (node_mem h) hnk

theorem pickSub_nodup {enc : Nat → Option (List Nat)} {subs : Bool} {s : Sub}
    (hn : s.tree.ids.Nodup) : (pickSub enc subs s).Nodup := by
  obtain ⟨h1, h2, h3, h4, h5⟩ := nodup_cons hn
  rw [pickSub]
  split
  · split
    · refine List.nodup_cons.mpr ⟨?_, pick_nodup h3 _⟩
      intro h
      obtain ⟨⟨_, h, _⟩, _⟩ := (mem_pick h3 _ _).mp h
      exact h1 (show (⟨s.id, true, _⟩ : Sub).id ∈ _ from node_mem h)
    · simp
  · exact pick_nodup h3 _

end Verif.SubRegions
