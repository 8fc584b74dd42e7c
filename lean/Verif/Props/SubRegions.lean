import Verif.Lemmas.SubRegionsRedo

/-!
# C93: the regions that are encoded as pytket circuits, and putting them back
-/

namespace Verif.SubRegions

/-! ### An example -/

/-- A function (1) with a gate (4), a conditional (5) with two cases (6, 7), and a loop (8) that the
encoder supports. The second case contains a gate (13) and a nested region (14). -/
def demo : Sub :=
  ⟨1, true, .cons 2 false .nil <| .cons 3 false .nil <| .cons 4 false .nil <|
    .cons 5 false
      (.cons 6 true (.cons 9 false .nil (.cons 10 false .nil .nil)) <|
        .cons 7 true (.cons 11 false .nil <| .cons 12 false .nil <| .cons 13 false .nil <|
          .cons 14 true (.cons 15 false .nil (.cons 16 false .nil .nil)) .nil) .nil) <|
    .cons 8 true (.cons 17 false .nil (.cons 18 false .nil .nil)) .nil⟩

/-- The encoder: the conditional and the inner region are opaque. -/
def demoEnc : Nat → Option (List Nat)
  | 1 => some [5]
  | 7 => some [14]
  | _ => some []

theorem demo_nodup : demo.tree.ids.Nodup := by decide

theorem demo_ok : OpaqueOk demoEnc demo.tree := by
  intro n ks opq h he
  simp only [demo, Sub.tree, node_cons, Sub.mk.injEq] at h
  have hnil : ∀ s, ¬ Node .nil s := by intro s h; cases h
  simp only [hnil, or_assoc, or_false, Bool.true_eq_false, false_and, and_false, false_or,
    true_and] at h
  rcases h with ⟨rfl, rfl⟩ | ⟨rfl, rfl⟩ | ⟨rfl, rfl⟩ | ⟨rfl, rfl⟩ | ⟨rfl, rfl⟩ <;> cases he <;>
    exact ⟨by decide, by decide⟩

example : encodeCircuits demoEnc true demo = .ok [1, 6, 7, 14] := by decide
example : encodeCircuits demoEnc false demo = .ok [1] := by decide

/-! ### The choice of regions -/

/-- The regions that are encoded are, each once, the wanted ones: dataflow regions such that every
dataflow region around them leaves the child that contains them to an opaque subgraph. If the encoder
fails for one of them, the whole encoding fails. -/
theorem C93_encoded (enc : Nat → Option (List Nat)) (subs : Bool) (entry : Sub)
    (hn : entry.tree.ids.Nodup) (hok : OpaqueOk enc entry.tree) :
    (∀ res, encodeCircuits enc subs entry = .ok res →
      res.Nodup ∧ ∀ n, n ∈ res ↔ Wanted enc subs entry n) ∧
    ((∃ res, encodeCircuits enc subs entry = .ok res) ↔
      ∀ n, Wanted enc subs entry n → enc n ≠ none) ∧
    (∀ n, encodeCircuits enc subs entry = .failed n → Wanted enc subs entry n ∧ enc n = none) ∧
    encodeCircuits enc subs entry ≠ .outOfFuel := by
  obtain ⟨h1, h2, h3, h4, h5⟩ := nodup_cons hn
  have hsub : SubOk enc entry := by
    refine ⟨h3, fun n ks opq h => hok n ks opq (.down h), fun opq hd he => ?_⟩
    refine hok entry.id entry.kids opq ?_ he
    rw [← hd]
    exact .here
  have key := encodeLoop_spec enc subs (entry.kids.ids.length + 1) [entry] [] (by simp [total])
    (fun s hs => by rw [List.mem_singleton.mp hs]; exact hsub)
    (by simpa using pickSub_nodup hn)
  simp only [List.flatMap_cons, List.flatMap_nil, List.append_nil, List.nil_append] at key
  have hm := fun n => mem_pickSub (enc := enc) (subs := subs) hn n
  rcases key with ⟨res, e, hp, hs⟩ | ⟨m, e, hp, hs⟩
  · have e : encodeCircuits enc subs entry = .ok res := e
    rw [e]
    refine ⟨?_, ?_, by simp, by simp⟩
    · rintro res' h
      cases h
      exact ⟨hp.nodup_iff.mpr (pickSub_nodup hn), fun n => by rw [hp.mem_iff, hm]⟩
    · exact iff_of_true ⟨res, rfl⟩ fun n h => hs n ((hm n).mpr h)
  · have e : encodeCircuits enc subs entry = .failed m := e
    rw [e]
    refine ⟨by simp, ?_, ?_, by simp⟩
    · refine iff_of_false (by simp) fun h => h m ((hm m).mp hp) hs
    · rintro n h
      cases h
      exact ⟨(hm _).mp hp, hs⟩

example : ∀ n, n ∈ [1, 6, 7, 14] ↔ Wanted demoEnc true demo n :=
  ((C93_encoded demoEnc true demo demo_nodup demo_ok).1 _ (by decide)).2

/-- Without the option only the outermost dataflow regions are encoded: the entry point if it is
one. -/
theorem C93_no_subcircuits (enc : Nat → Option (List Nat)) (entry : Sub)
    (hn : entry.tree.ids.Nodup) (hok : OpaqueOk enc entry.tree) (hd : entry.df = true)
    (he : enc entry.id ≠ none) : encodeCircuits enc false entry = .ok [entry.id] := by
  have hw : ∀ n, Wanted enc false entry n ↔ n = entry.id := by
    intro n
    constructor
    · rintro ⟨⟨ks, h, _⟩, ha⟩
      by_contra hne
      rcases node_cons.mp h with h | h | h
      · simp only [Sub.mk.injEq] at h
        exact hne h.1
      · obtain ⟨s, hs, hx⟩ := mem_top_ids (node_mem h)
        have := ha entry.id s.id entry.kids (by rw [← hd]; exact .here)
          (.here s hs rfl hx)
        exact absurd this.1 (by simp)
      · cases h
    · rintro rfl
      refine ⟨⟨entry.kids, by rw [← hd]; exact .here, Or.inl rfl⟩, ?_⟩
      exact around_here hn
  obtain ⟨h1, h2, _⟩ := C93_encoded enc false entry hn hok
  obtain ⟨res, h⟩ := h2.mpr (fun n h => (hw n).mp h ▸ he)
  obtain ⟨hnd, hmem⟩ := h1 res h
  have : res.Perm [entry.id] := by
    rw [List.perm_ext_iff_of_nodup hnd (by simp)]
    intro n
    rw [hmem, hw, List.mem_singleton]
  rw [h, List.perm_singleton.mp this]

/-! ### Putting the regions back -/

/-- The hash map may yield the regions in any order. Every order succeeds exactly if every region
that contains another one keeps the child with the other one. -/
theorem C93_every_order (t : Forest) (hn : t.ids.Nodup) (ps : List (Nat × List Item))
    (hp : Plans t ps) :
    (∀ order, order.Perm ps → ∃ t', reassemble order t = some t') ↔ Keeps t ps := by
  have hid : applyP (fun _ => none) t = t := by
    clear hn hp
    induction t with
    | nil => rfl
    | cons i d ks r ih1 ih2 =>
      simp only [applyP]
      rw [ih1, ih2]
  constructor
  · intro h p hpm p' hpm' c hi
    by_contra hc
    have hne : p ≠ p' := by
      rintro rfl
      exact inside_ne hn hi rfl
    obtain ⟨rest, hperm⟩ : ∃ rest, (p :: p' :: rest).Perm ps := by
      obtain ⟨a, ha⟩ := exists_perm_cons hpm
      have : p' ∈ a := by
        rcases List.mem_cons.mp (ha.mem_iff.mpr hpm') with h | h
        · exact absurd h.symm hne
        · exact h
      obtain ⟨b, hb⟩ := exists_perm_cons this
      exact ⟨b, (List.Perm.cons p hb).trans ha⟩
    obtain ⟨t', ht'⟩ := h _ hperm
    obtain ⟨r, is⟩ := p
    obtain ⟨r', is'⟩ := p'
    obtain ⟨d, ks, hs, ho⟩ := hp.region _ hpm
    have hr := round_apply (P := fun _ => none) (is := is) hn rfl (fun _ _ h => by cases h)
      (by rw [hid]; exact node_mem hs) hs ho
    rw [hid] at hr
    rw [reassemble, hr] at ht'
    dsimp only at ht'
    rw [reassemble, round] at ht'
    have hgone : r' ∉ (applyP (upd (fun _ => none) r is) t).ids := by
      intro hm
      have hf : NotNew (upd (fun _ => none) r is) r' := by
        intro a js h1 h2
        rw [upd] at h1
        split at h1
        · cases h1
          exact hp.fresh _ hpm _ h2 (inside_mem hi).2.1
        · cases h1
      exact hc (((survives hn hf).mp hm).2 r is c (by simp [upd]) hi)
    rw [kidsOf_none.mpr hgone] at ht'
    cases ht'
  · intro h order ho
    have := reassemble_apply hn order (fun _ => none) ((ho.map _).nodup_iff.mpr hp.keys)
      (fun p hm => hp.region p (ho.mem_iff.mp hm)) (fun _ _ => rfl)
      (fun p hm => hp.fresh p (ho.mem_iff.mp hm)) (fun _ _ h => by cases h)
      (fun p hm p' hm' => h p (ho.mem_iff.mp hm) p' (ho.mem_iff.mp hm')) (fun _ _ h => by cases h)
    rw [hid] at this
    exact ⟨_, this⟩

/-- Then the result is the same for every order, and it is what one expects: a node of the program is
left exactly if all regions around it keep the child with it, regions that were put back have their
new contents, and other nodes have the contents they had. -/
theorem C93_result (t : Forest) (hn : t.ids.Nodup) (ps : List (Nat × List Item)) (hp : Plans t ps)
    (hk : Keeps t ps) : ∃ t', (∀ order, order.Perm ps → reassemble order t = some t') ∧
      (∀ n ∈ t.ids, n ∈ t'.ids ↔ ∀ p ∈ ps, ∀ c, Inside t p.1 c n → c ∈ olds p.2) ∧
      (∀ p ∈ ps, (t'.kidsOf p.1).map (fun f => f.tops.map Sub.id) = some (p.2.map Item.id)) ∧
      ∀ n ∈ t.ids, n ∈ t'.ids → n ∉ ps.map Prod.fst →
        (t'.kidsOf n).map (fun f => f.tops.map Sub.id) =
          (t.kidsOf n).map (fun f => f.tops.map Sub.id) := by
  have hid : applyP (fun _ => none) t = t := by
    clear hn hp hk
    induction t with
    | nil => rfl
    | cons i d ks r ih1 ih2 =>
      simp only [applyP]
      rw [ih1, ih2]
  have hlook : ∀ n js, updAll (fun _ => none) ps n = some js ↔ (n, js) ∈ ps := by
    intro n js
    rw [updAll_eq _ _ hp.keys]
    simp
  have hnew : ∀ n ∈ t.ids, NotNew (updAll (fun _ => none) ps) n := by
    intro n hm a js h h'
    exact hp.fresh _ ((hlook a js).mp h) n h' hm
  have hsurv : ∀ n ∈ t.ids, (n ∈ (applyP (updAll (fun _ => none) ps) t).ids ↔
      ∀ p ∈ ps, ∀ c, Inside t p.1 c n → c ∈ olds p.2) := by
    intro n hm
    rw [survives hn (hnew n hm)]
    constructor
    · rintro ⟨_, h⟩ p hpm c hi
      exact h p.1 p.2 c ((hlook _ _).mpr hpm) hi
    · intro h
      exact ⟨hm, fun a js c hj hi => h (a, js) ((hlook _ _).mp hj) c hi⟩
  refine ⟨applyP (updAll (fun _ => none) ps) t, ?_, hsurv, ?_, ?_⟩
  · intro order ho
    have hko := (ho.map Prod.fst).nodup_iff.mpr hp.keys
    have := reassemble_apply hn order (fun _ => none) hko
      (fun p hm => hp.region p (ho.mem_iff.mp hm)) (fun _ _ => rfl)
      (fun p hm => hp.fresh p (ho.mem_iff.mp hm)) (fun _ _ h => by cases h)
      (fun p hm p' hm' => hk p (ho.mem_iff.mp hm) p' (ho.mem_iff.mp hm')) (fun _ _ h => by cases h)
    rw [hid] at this
    rw [this]
    congr 2
    funext n
    refine Option.ext fun js => ?_
    rw [hlook, updAll_eq _ _ hko]
    simp [ho.mem_iff]
  · intro p hpm
    obtain ⟨d, ks, hs, ho⟩ := hp.region p hpm
    have hm : p.1 ∈ t.ids := node_mem hs
    have hl := (hsurv _ hm).mpr fun p' hp' c hi => hk p' hp' p hpm c hi
    rw [kidsOf_apply hn (hnew _ hm) hl hs rfl]
    simp only [inner, Option.map_some, (hlook _ _).mpr hpm]
    rw [place_ids]
    intro k hk
    rw [get_isSome, topIds_apply]
    exact ho k hk
  · intro n hm hl hno
    obtain ⟨d, ks, hs⟩ := mem_node hm
    rw [kidsOf_apply hn (hnew _ hm) hl hs rfl, node_kidsOf (s := ⟨n, d, ks⟩) hn hs]
    have : updAll (fun _ => none) ps n = none := by
      cases h : updAll (fun _ => none) ps n with
      | none => rfl
      | some js => exact absurd (List.mem_map.mpr ⟨_, (hlook n js).mp h, rfl⟩) hno
    simp only [inner, Option.map_some, this]
    rw [topIds_apply]

/-- Encoding a program with its subcircuits and putting the circuits back succeeds in every order of
the hash map, if all opaque subgraphs are still in the circuits. -/
theorem C93_round_trip_partial (enc : Nat → Option (List Nat)) (entry : Sub)
    (hn : entry.tree.ids.Nodup) (hok : OpaqueOk enc entry.tree) (subs : Bool) (res : List Nat)
    (he : encodeCircuits enc subs entry = .ok res) (ps : List (Nat × List Item))
    (hp : Plans entry.tree ps) (hr : (ps.map Prod.fst).Perm res)
    (hall : ∀ p ∈ ps, ∀ opq, enc p.1 = some opq → ∀ k ∈ opq, k ∈ olds p.2) :
    ∃ t', ∀ order, order.Perm ps → reassemble order entry.tree = some t' := by
  have hw := ((C93_encoded enc subs entry hn hok).1 res he).2
  have hk : Keeps entry.tree ps := by
    intro p hpm p' hpm' c hi
    have h1 := (hw p.1).mp (hr.mem_iff.mp (List.mem_map.mpr ⟨p, hpm, rfl⟩))
    have h2 := (hw p'.1).mp (hr.mem_iff.mp (List.mem_map.mpr ⟨p', hpm', rfl⟩))
    obtain ⟨⟨ks, hnode, _⟩, _⟩ := h1
    obtain ⟨_, opq, ho, hc⟩ := h2.2 p.1 c ks hnode hi
    exact hall p hpm opq ho c hc
  obtain ⟨t', h, _⟩ := C93_result entry.tree hn ps hp hk
  exact ⟨t', h⟩

/-- Contents for the example: the gate of the function is replaced by two, the inner region is
emptied. -/
def demoPlans : List (Nat × List Item) :=
  [(1, [.new 20, .new 21, .new 22, .old 5, .new 23]), (6, [.new 24, .new 25]),
    (7, [.new 26, .new 27, .old 14]), (14, [.new 28, .new 29])]

theorem demo_plans : Plans demo.tree demoPlans := by
  refine ⟨by decide, ?_, by decide, by decide⟩
  intro p hp
  simp only [demoPlans, List.mem_cons, List.not_mem_nil, or_false] at hp
  rcases hp with rfl | rfl | rfl | rfl
  · exact ⟨_, _, .here, by decide⟩
  · exact ⟨_, _, .down (.next (.next (.next (.down .here)))), by decide⟩
  · exact ⟨_, _, .down (.next (.next (.next (.down (.next .here))))), by decide⟩
  · exact ⟨_, _, .down (.next (.next (.next (.down (.next (.down (.next (.next (.next .here))))))))),
      by decide⟩

example : ∃ t', ∀ order, order.Perm demoPlans → reassemble order demo.tree = some t' :=
  C93_round_trip_partial demoEnc demo demo_nodup demo_ok true [1, 6, 7, 14] (by decide) demoPlans
    demo_plans (by decide) (by decide)

/-- If an optimiser removes the barrier of an opaque subgraph with an encoded region inside (which
is what `RemoveBarriers` is for), the outcome depends on the order of the hash map. -/
theorem C93_order_matters :
    ∃ (ps order : List (Nat × List Item)), order.Perm ps ∧ Plans demo.tree ps ∧
      ps.map Prod.fst = [1, 6, 7, 14] ∧ (∃ t', reassemble order demo.tree = some t') ∧
      reassemble ps demo.tree = none := by
  refine ⟨[(1, [.new 20, .new 21]), (6, []), (7, []), (14, [])],
    [(14, []), (7, []), (6, []), (1, [.new 20, .new 21])], by decide, ?_, rfl, ⟨_, rfl⟩, rfl⟩
  refine ⟨by decide, ?_, by decide, by decide⟩
  intro p hp
  simp only [List.mem_cons, List.not_mem_nil, or_false] at hp
  rcases hp with rfl | rfl | rfl | rfl
  · exact ⟨_, _, .here, by decide⟩
  · exact ⟨_, _, .down (.next (.next (.next (.down .here)))), by decide⟩
  · exact ⟨_, _, .down (.next (.next (.next (.down (.next .here))))), by decide⟩
  · exact ⟨_, _, .down (.next (.next (.next (.down (.next (.down (.next (.next (.next .here))))))))),
      by decide⟩

end Verif.SubRegions
