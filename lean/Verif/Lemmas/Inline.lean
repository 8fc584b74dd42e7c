import Verif.Model.InlineSpec

/-
Lemmas on standalone circuits.
-/
namespace Verif.Inline

variable {π : Type}

/-! ### Writing -/

/-- What the code leaves as data when it succeeds. -/
def left (write : Id → Except Err π) (barrier : Bool) (d : Option (Data π)) : Option (Data π) :=
  (inlineData write barrier d).1

theorem inlineData_err (write : Id → Except Err π) (b : Bool) (d : Option (Data π)) :
    (inlineData write b d).2 = ((if b then d.toList else []).filterMap fun d => match d with
      | .external id => (match write id with | .ok _ => none | .error e => some e)
      | _ => none).head? := by
  unfold inlineData
  cases b with
  | false => rfl
  | true =>
    simp only [if_true]
    split
    · next id => 
      simp only [Option.toList_some]
      cases h : write id with
      | ok p => simp [h]
      | error e => simp [h]
    · next hne =>
      cases d with
      | none => rfl
      | some d =>
        cases d with
        | external id => exact absurd rfl (hne id)
        | inline p => rfl
        | other t => rfl

/-- Errors of references, in order. -/
def errors (write : Id → Except Err π) (ds : List (Data π)) : List Err :=
  ds.filterMap fun d => match d with
    | .external id => (match write id with | .ok _ => none | .error e => some e)
    | _ => none

theorem errors_append (write : Id → Except Err π) (a b : List (Data π)) :
    errors write (a ++ b) = errors write a ++ errors write b := List.filterMap_append

theorem inlineData_errors (write : Id → Except Err π) (b : Bool) (d : Option (Data π)) :
    (inlineData write b d).2 = (errors write (if b then d.toList else [])).head? := inlineData_err write b d

mutual
theorem standaloneCmd_spec (write : Id → Except Err π) (c : Cmd π) :
    (standaloneCmd write c).2 = (errors write c.barriers).head? ∧
      ((standaloneCmd write c).2 = none → (standaloneCmd write c).1 = c.map (left write)) := by
  cases c with
  | plain b d =>
    simp only [standaloneCmd, Cmd.barriers, Cmd.map, left]
    exact ⟨inlineData_errors write b d, fun _ => trivial⟩
  | box b d cs =>
    obtain ⟨h1, h2⟩ := standaloneCmds_spec write cs
    have h3 := inlineData_errors write b d
    simp only [standaloneCmd, Cmd.barriers, errors_append, List.head?_append]
    cases he : (inlineData write b d).2 with
    | some e =>
      rw [← h3, he]
      exact ⟨rfl, fun h => by cases h⟩
    | none =>
      rw [← h3, he]
      refine ⟨h1, fun h => ?_⟩
      simp only [Cmd.map, left]
      rw [h2 h]
theorem standaloneCmds_spec (write : Id → Except Err π) (cs : Cmds π) :
    (standaloneCmds write cs).2 = (errors write cs.barriers).head? ∧
      ((standaloneCmds write cs).2 = none → (standaloneCmds write cs).1 = cs.map (left write)) := by
  cases cs with
  | nil => exact ⟨rfl, fun _ => rfl⟩
  | cons c cs =>
    obtain ⟨h1, h2⟩ := standaloneCmd_spec write c
    obtain ⟨h3, h4⟩ := standaloneCmds_spec write cs
    simp only [standaloneCmds, Cmds.barriers, errors_append, List.head?_append]
    cases he : (standaloneCmd write c).2 with
    | some e =>
      rw [← h1, he]
      exact ⟨rfl, fun h => by cases h⟩
    | none =>
      rw [← h1, he]
      refine ⟨h3, fun h => ?_⟩
      simp only [Cmds.map]
      rw [h2 he, h4 h]
end

theorem ensure_spec (write : Id → Except Err π) (cs : List (Cmds π)) :
    (ensureStandalone write cs).2 = (errors write (cs.flatMap Cmds.barriers)).head? ∧
      ((ensureStandalone write cs).2 = none → (ensureStandalone write cs).1 = cs.map (Cmds.map (left write))) := by
  induction cs with
  | nil => exact ⟨rfl, fun _ => rfl⟩
  | cons c cs ih =>
    obtain ⟨h1, h2⟩ := standaloneCmds_spec write c
    obtain ⟨h3, h4⟩ := ih
    simp only [ensureStandalone, List.flatMap_cons, errors_append, List.head?_append]
    cases he : (standaloneCmds write c).2 with
    | some e =>
      rw [← h1, he]
      exact ⟨rfl, fun h => by cases h⟩
    | none =>
      rw [← h1, he]
      refine ⟨h3, fun h => ?_⟩
      simp only [List.map_cons]
      rw [h2 he, h4 h]

/-- Data of barriers after a function of the data. -/
def pushed (f : Bool → Option (Data π) → Option (Data π)) (d : Option (Data π)) : List (Data π) := (f true d).toList

mutual
theorem Cmd.map_congr (f k : Bool → Option (Data π) → Option (Data π)) (c : Cmd π)
    (h : ∀ d, f false d = k false d) (h0 : f true none = k true none)
    (hd : ∀ d ∈ c.barriers, f true (some d) = k true (some d)) : c.map f = c.map k := by
  cases c with
  | plain b d =>
    cases b with
    | false => simp only [Cmd.map, h]
    | true =>
      cases d with
      | none => simp only [Cmd.map, h0]
      | some d => simp only [Cmd.map, hd d (by simp [Cmd.barriers])]
  | box b d cs =>
    have := Cmds.map_congr f k cs h h0 (fun d hm => hd d (by simp [Cmd.barriers, hm]))
    cases b with
    | false => simp only [Cmd.map, h, this]
    | true =>
      cases d with
      | none => simp only [Cmd.map, h0, this]
      | some d => simp only [Cmd.map, hd d (by simp [Cmd.barriers]), this]
theorem Cmds.map_congr (f k : Bool → Option (Data π) → Option (Data π)) (cs : Cmds π)
    (h : ∀ d, f false d = k false d) (h0 : f true none = k true none)
    (hd : ∀ d ∈ cs.barriers, f true (some d) = k true (some d)) : cs.map f = cs.map k := by
  cases cs with
  | nil => rfl
  | cons c cs =>
    simp only [Cmds.map]
    rw [Cmd.map_congr f k c h h0 (fun d hm => hd d (by simp [Cmds.barriers, hm])),
      Cmds.map_congr f k cs h h0 (fun d hm => hd d (by simp [Cmds.barriers, hm]))]
end

mutual
theorem Cmd.barriers_map (f : Bool → Option (Data π) → Option (Data π)) (h0 : f true none = none) (c : Cmd π) :
    (c.map f).barriers = c.barriers.flatMap fun d => (f true (some d)).toList := by
  cases c with
  | plain b d =>
    cases b with
    | false => simp [Cmd.map, Cmd.barriers]
    | true => cases d <;> simp [Cmd.map, Cmd.barriers, h0]
  | box b d cs =>
    have := Cmds.barriers_map f h0 cs
    cases b with
    | false => simp [Cmd.map, Cmd.barriers, this]
    | true => cases d <;> simp [Cmd.map, Cmd.barriers, h0, this]
theorem Cmds.barriers_map (f : Bool → Option (Data π) → Option (Data π)) (h0 : f true none = none) (cs : Cmds π) :
    (cs.map f).barriers = cs.barriers.flatMap fun d => (f true (some d)).toList := by
  cases cs with
  | nil => rfl
  | cons c cs =>
    simp only [Cmds.map, Cmds.barriers, List.flatMap_append]
    rw [Cmd.barriers_map f h0 c, Cmds.barriers_map f h0 cs]
end

theorem left_none (write : Id → Except Err π) : left write true none = none := rfl

theorem left_inline (write : Id → Except Err π) (d : Data π) (h : ∀ id, d ≠ .external id) :
    left write true (some d) = none := by
  cases d with
  | external id => exact absurd rfl (h id)
  | inline p => rfl
  | other t => rfl

theorem left_external (write : Id → Except Err π) (id : Id) :
    left write true (some (.external id)) = match write id with
      | .ok p => some (.inline p)
      | .error _ => none := by
  simp only [left, inlineData, if_true]
  cases write id <;> rfl

theorem mem_errors (write : Id → Except Err π) (ds : List (Data π)) (e : Err) :
    e ∈ errors write ds ↔ ∃ id, .external id ∈ ds ∧ write id = .error e := by
  simp only [errors, List.mem_filterMap]
  constructor
  · rintro ⟨d, hd, h⟩
    cases d with
    | external id =>
      refine ⟨id, hd, ?_⟩
      simp only at h
      cases hw : write id with
      | ok p => rw [hw] at h; cases h
      | error e' => rw [hw] at h; cases h; rfl
    | inline p => cases h
    | other t => cases h
  · rintro ⟨id, hd, h⟩
    exact ⟨_, hd, by simp [h]⟩

theorem errors_nil (write : Id → Except Err π) (ds : List (Data π)) :
    (errors write ds).head? = none ↔ ∀ id, .external id ∈ ds → ∃ p, write id = .ok p := by
  rw [List.head?_eq_none_iff, List.eq_nil_iff_forall_not_mem]
  constructor
  · intro h id hm
    cases hw : write id with
    | ok p => exact ⟨p, rfl⟩
    | error e => exact absurd ((mem_errors write ds e).mpr ⟨id, hm, hw⟩) (h e)
  · intro h e he
    obtain ⟨id, hm, hw⟩ := (mem_errors write ds e).mp he
    obtain ⟨p, hp⟩ := h id hm
    rw [hp] at hw; cases hw

/-! ### Reading -/

open List (Perm)

theorem filter_pairs (id i : Edge) (xs : List (Node × Nat)) :
    (xs.map fun t => (id, t)).filter (fun t => t.1 = i) = if id = i then xs.map (fun t => (id, t)) else [] := by
  induction xs with
  | nil => simp
  | cons x xs ih =>
    rw [List.map_cons, List.filter_cons, ih]
    by_cases h : id = i <;> simp [h]

theorem joined_nil (ss : List (Edge × Wire)) : joined ss [] = [] := by
  simp [joined]

theorem joined_append_left (a b : List (Edge × Wire)) (ts : List (Edge × (Node × Nat))) :
    joined (a ++ b) ts = joined a ts ++ joined b ts := List.flatMap_append

theorem joined_append_right (ss : List (Edge × Wire)) (a b : List (Edge × (Node × Nat))) :
    Perm (joined ss (a ++ b)) (joined ss a ++ joined ss b) := by
  induction ss with
  | nil => exact .refl _
  | cons s ss ih =>
    simp only [joined, List.flatMap_cons, List.filter_append, List.map_append] at ih ⊢
    generalize (List.filter (fun t => decide (t.1 = s.1)) a).map (fun t => (⟨s.2, t.2⟩ : Link)) = x
    generalize (List.filter (fun t => decide (t.1 = s.1)) b).map (fun t => (⟨s.2, t.2⟩ : Link)) = y
    refine (List.Perm.append_left (x ++ y) ih).trans ?_
    rw [List.append_assoc, List.append_assoc]
    refine List.Perm.append_left x ?_
    rw [← List.append_assoc, ← List.append_assoc]
    exact List.Perm.append_right _ List.perm_append_comm

theorem joined_none {ss : List (Edge × Wire)} {id : Edge} {ts : List (Node × Nat)}
    (h : id ∉ ss.map Prod.fst) : joined ss (ts.map fun t => (id, t)) = [] := by
  simp only [joined, List.flatMap_eq_nil_iff, List.map_eq_nil_iff, List.filter_eq_nil_iff, List.mem_map]
  rintro s hs x ⟨t, -, rfl⟩
  simp only [decide_eq_true_eq]
  rintro rfl
  exact h (List.mem_map_of_mem hs)

theorem joined_one {ss : List (Edge × Wire)} {id : Edge} {w : Wire} {ts : List (Node × Nat)}
    (hd : (ss.map Prod.fst).Nodup) (h : (id, w) ∈ ss) :
    joined ss (ts.map fun t => (id, t)) = ts.map fun t => ⟨w, t⟩ := by
  induction ss with
  | nil => cases h
  | cons s ss ih =>
    obtain ⟨n1, n2⟩ := List.nodup_cons.mp hd
    change ((ts.map fun t => (id, t)).filter fun t => t.1 = s.1).map (fun t => (⟨s.2, t.2⟩ : Link)) ++ joined ss _ = _
    rw [filter_pairs]
    rcases List.mem_cons.mp h with rfl | h
    · rw [joined_none n1, List.append_nil, if_pos rfl, List.map_map]
      rfl
    · have hne : id ≠ s.1 := by
        rintro rfl
        exact n1 (List.mem_map.mpr ⟨_, h, rfl⟩)
      rw [ih n2 h, if_neg hne, List.map_nil, List.nil_append]

/-- The table says which identifiers have a source, and which targets wait. -/
structure Inv (s : State) (base : List Link) (ss : List (Edge × Wire)) (ts : List (Edge × (Node × Nat))) : Prop where
  links : Perm s.links (base ++ joined ss ts)
  nodup : (ss.map Prod.fst).Nodup
  assoc : ∀ id w, (id, w) ∈ ss ↔ ∃ x, s.table id = some x ∧ x = .associated w
  pend : ∀ id, id ∉ ss.map Prod.fst →
    (s.table id = none ∧ ts.filter (fun t => t.1 = id) = []) ∨
    s.table id = some (.pending ((ts.filter fun t => t.1 = id).map Prod.snd))

theorem Inv.targets {s : State} {base : List Link} {ss : List (Edge × Wire)} {ts : List (Edge × (Node × Nat))}
    (H : Inv s base ss ts) (id : Edge) (xs : List (Node × Nat)) :
    Inv (connectTargets s id xs) base ss (ts ++ xs.map fun t => (id, t)) := by
  by_cases hm : id ∈ ss.map Prod.fst
  · obtain ⟨⟨i, w⟩, hw, rfl⟩ := List.mem_map.mp hm
    obtain ⟨x, hx, rfl⟩ := (H.assoc i w).mp hw
    have e : connectTargets s i xs = { s with links := s.links ++ xs.map fun t => ⟨w, t⟩ } := by
      simp only [connectTargets, hx]
    rw [e]
    refine ⟨?_, H.nodup, H.assoc, fun j hj => ?_⟩
    · refine (List.Perm.append_right _ H.links).trans ?_
      rw [List.append_assoc]
      refine List.Perm.append_left _ ?_
      refine List.Perm.trans ?_ (joined_append_right ss ts _).symm
      rw [joined_one H.nodup hw]
    · have hne : i ≠ j := by rintro rfl; exact hj hm
      rw [List.filter_append, filter_pairs, if_neg hne, List.append_nil]
      exact H.pend j hj
  · have hj := joined_none (ts := xs) hm
    have hlinks : Perm s.links (base ++ joined ss (ts ++ xs.map fun t => (id, t))) := by
      refine H.links.trans (List.Perm.append_left _ ?_)
      refine List.Perm.trans ?_ (joined_append_right ss ts _).symm
      rw [hj, List.append_nil]
    have key : ∀ ys, connectTargets s id xs = s.set id (.pending ys) →
        ys = ((ts ++ xs.map fun t => (id, t)).filter fun t => t.1 = id).map Prod.snd →
        Inv (connectTargets s id xs) base ss (ts ++ xs.map fun t => (id, t)) := by
      intro ys e hys
      rw [e]
      refine ⟨hlinks, H.nodup, fun j w => ?_, fun j hj => ?_⟩
      · simp only [State.set]
        by_cases hji : j = id
        · subst hji
          rw [if_pos rfl]
          constructor
          · intro h
            exact absurd (List.mem_map_of_mem h) hm
          · rintro ⟨x, h1, h2⟩
            cases h1; cases h2
        · rw [if_neg hji]
          exact H.assoc j w
      · simp only [State.set]
        by_cases hji : j = id
        · subst hji
          rw [if_pos rfl, ← hys]
          exact .inr rfl
        · rw [if_neg hji, List.filter_append, filter_pairs, if_neg (Ne.symm hji), List.append_nil]
          exact H.pend j hj
    rcases H.pend id hm with ⟨h1, h2⟩ | h1
    · refine key xs (by simp only [connectTargets, h1]) ?_
      rw [List.filter_append, h2, filter_pairs, if_pos rfl, List.nil_append, List.map_map]
      exact (List.map_id _).symm
    · refine key _ (by simp only [connectTargets, h1]; rfl) ?_
      rw [List.filter_append, filter_pairs, if_pos rfl, List.map_append, List.map_map]
      congr 1
      exact (List.map_id _).symm

theorem Inv.source {s : State} {base : List Link} {ss : List (Edge × Wire)} {ts : List (Edge × (Node × Nat))}
    (H : Inv s base ss ts) (id : Edge) (w : Wire) :
    (id ∈ ss.map Prod.fst → connectSource s id w = none) ∧
      (id ∉ ss.map Prod.fst → ∃ s', connectSource s id w = some s' ∧ Inv s' base (ss ++ [(id, w)]) ts) := by
  constructor
  · intro hm
    obtain ⟨⟨i, v⟩, hw, rfl⟩ := List.mem_map.mp hm
    obtain ⟨x, hx, rfl⟩ := (H.assoc i v).mp hw
    simp only [connectSource, hx]
  · intro hm
    have hnd : ((ss ++ [(id, w)]).map Prod.fst).Nodup := by
      rw [List.map_append]
      refine List.nodup_append.mpr ⟨H.nodup, by simp, ?_⟩
      intro a ha b hb e
      simp only [List.map_cons, List.map_nil, List.mem_singleton] at hb
      subst e; subst hb
      exact hm ha
    have hjoin : joined (ss ++ [(id, w)]) ts = joined ss ts ++ (ts.filter fun t => t.1 = id).map fun t => ⟨w, t.2⟩ := by
      rw [joined_append_left]
      congr 1
      simp [joined]
    have key : ∀ s' : State, s'.table = (fun i => if i = id then some (.associated w) else s.table i) →
        s'.links = s.links ++ ((ts.filter fun t => t.1 = id).map fun t => ⟨w, t.2⟩) →
        Inv s' base (ss ++ [(id, w)]) ts := by
      intro s' h1 h2
      refine ⟨?_, hnd, fun j v => ?_, fun j hj => ?_⟩
      · rw [h2, hjoin, ← List.append_assoc]
        exact List.Perm.append_right _ H.links
      · rw [h1]
        by_cases hji : j = id
        · subst hji
          simp only [if_true, List.mem_append, List.mem_singleton]
          constructor
          · rintro (h | h)
            · exact absurd (List.mem_map_of_mem h) hm
            · cases h; exact ⟨_, rfl, rfl⟩
          · rintro ⟨x, h3, h4⟩
            subst h4; cases h3; exact .inr rfl
        · simp only [List.mem_append, List.mem_singleton, Prod.mk.injEq, hji, false_and, or_false]
          exact H.assoc j v
      · rw [h1]
        simp only [List.map_append, List.mem_append, List.map_cons, List.map_nil, List.mem_singleton, not_or] at hj
        simp only [if_neg hj.2]
        exact H.pend j hj.1
    rcases H.pend id hm with ⟨h1, h2⟩ | h1
    · refine ⟨s.set id (.associated w), by simp only [connectSource, h1], key _ rfl ?_⟩
      rw [h2, List.map_nil, List.append_nil]
      rfl
    · refine ⟨{ (s.set id (.associated w)) with
          links := s.links ++ ((ts.filter fun t => t.1 = id).map Prod.snd).map fun t => ⟨w, t⟩ },
        by simp only [connectSource, h1], key _ rfl ?_⟩
      simp only [List.map_map]
      rfl

theorem Inv.base {s : State} {b : List Link} {ss : List (Edge × Wire)} {ts : List (Edge × (Node × Nat))}
    (H : Inv s b ss ts) (ls : List Link) : Inv { s with links := s.links ++ ls } (b ++ ls) ss ts := by
  refine ⟨?_, H.nodup, H.assoc, H.pend⟩
  refine (List.Perm.append_right _ H.links).trans ?_
  rw [List.append_assoc, List.append_assoc]
  exact List.Perm.append_left _ List.perm_append_comm

theorem Inv.inputs (m : Node → Node) (xs : List (Option Wire × Edge × List (Node × Nat))) {s : State} {b : List Link}
    {ss : List (Edge × Wire)} {ts : List (Edge × (Node × Nat))} (H : Inv s b ss ts) :
    Inv (wireInputs m s xs)
      (b ++ xs.flatMap fun x => match x.1 with
        | some w => x.2.2.map fun t => ⟨w, (m t.1, t.2)⟩
        | none => []) ss
      (ts ++ xs.flatMap fun y => match y.1 with
        | some _ => []
        | none => y.2.2.map fun t => (y.2.1, t)) := by
  induction xs generalizing s b ts with
  | nil => simpa [wireInputs] using H
  | cons x xs ih =>
    obtain ⟨f, id, ys⟩ := x
    cases f with
    | some w =>
      have := ih (H.base (ys.map fun t => ⟨w, (m t.1, t.2)⟩))
      simpa [wireInputs, List.append_assoc] using this
    | none =>
      have := ih (H.targets id ys)
      simpa [wireInputs, List.append_assoc] using this

/-- Sources that a list of outputs declares. -/
def declared (m : Node → Node) (xs : List (Bool × Edge × Wire)) : List (Edge × Wire) :=
  xs.filterMap fun y => if y.1 then none else some (y.2.1, (m y.2.2.1, y.2.2.2))

theorem Inv.outputs (m : Node → Node) (xs : List (Bool × Edge × Wire)) {s : State} {b : List Link}
    {ss : List (Edge × Wire)} {ts : List (Edge × (Node × Nat))} (H : Inv s b ss ts) :
    (((ss ++ declared m xs).map Prod.fst).Nodup →
      ∃ s', wireOutputs m s xs = some s' ∧ Inv s' b (ss ++ declared m xs) ts) ∧
    (¬ ((ss ++ declared m xs).map Prod.fst).Nodup → wireOutputs m s xs = none) := by
  induction xs generalizing s ss with
  | nil =>
    simp only [declared, List.filterMap_nil, List.append_nil]
    exact ⟨fun _ => ⟨s, rfl, H⟩, fun h => absurd H.nodup h⟩
  | cons x xs ih =>
    obtain ⟨t, id, w⟩ := x
    cases t with
    | true =>
      have e : declared m ((true, id, w) :: xs) = declared m xs := by simp [declared]
      rw [e, wireOutputs]
      exact ih H
    | false =>
      have e : declared m ((false, id, w) :: xs) = (id, (m w.1, w.2)) :: declared m xs := by simp [declared]
      have e2 : ss ++ declared m ((false, id, w) :: xs) = (ss ++ [(id, (m w.1, w.2))]) ++ declared m xs := by
        rw [e, List.append_assoc]; rfl
      rw [e2, wireOutputs]
      by_cases hm : id ∈ ss.map Prod.fst
      · rw [(H.source id (m w.1, w.2)).1 hm]
        refine ⟨fun hn => ?_, fun _ => rfl⟩
        exfalso
        rw [List.map_append, List.map_append] at hn
        have := (List.nodup_append.mp (List.nodup_append.mp hn).1).2.2 id hm id (by simp)
        exact this rfl
      · obtain ⟨s', h1, h2⟩ := (H.source id (m w.1, w.2)).2 hm
        rw [h1]
        exact ih h2

theorem Inv.insert (m : Node → Node) (p : Payload) {s : State} {b : List Link}
    {ss : List (Edge × Wire)} {ts : List (Edge × (Node × Nat))} (H : Inv s b ss ts) :
    (((ss ++ declared m p.outs).map Prod.fst).Nodup →
      ∃ s', insertInline m s p = some s' ∧ Inv s' (b ++ direct m p) (ss ++ declared m p.outs)
        (ts ++ targetsOf [(m, p)])) ∧
    (¬ ((ss ++ declared m p.outs).map Prod.fst).Nodup → insertInline m s p = none) := by
  have h1 := (H.base (p.links.map fun l => ⟨(m l.src.1, l.src.2), (m l.dst.1, l.dst.2)⟩)).inputs m p.ins
  have h2 := h1.outputs m p.outs
  refine ⟨fun hn => ?_, h2.2⟩
  obtain ⟨s', e, h3⟩ := h2.1 hn
  refine ⟨s', e, ?_⟩
  have e1 : targetsOf [(m, p)] = p.ins.flatMap fun y => match y.1 with
      | some _ => []
      | none => y.2.2.map fun t => (y.2.1, t) := List.append_nil _
  rw [e1, direct, ← List.append_assoc]
  exact h3

theorem Inv.all (ps : List ((Node → Node) × Payload)) {s : State} {b : List Link}
    {ss : List (Edge × Wire)} {ts : List (Edge × (Node × Nat))} (H : Inv s b ss ts) :
    (((ss ++ sourcesOf ps).map Prod.fst).Nodup →
      ∃ s', insertAll s ps = some s' ∧ Inv s' (b ++ ps.flatMap fun x => direct x.1 x.2) (ss ++ sourcesOf ps)
        (ts ++ targetsOf ps)) ∧
    (¬ ((ss ++ sourcesOf ps).map Prod.fst).Nodup → insertAll s ps = none) := by
  induction ps generalizing s b ss ts with
  | nil =>
    simp only [sourcesOf, targetsOf, List.flatMap_nil, List.append_nil]
    exact ⟨fun _ => ⟨s, rfl, H⟩, fun h => absurd H.nodup h⟩
  | cons x xs ih =>
    obtain ⟨m, p⟩ := x
    have e1 : ss ++ sourcesOf ((m, p) :: xs) = (ss ++ declared m p.outs) ++ sourcesOf xs := by
      rw [List.append_assoc]; rfl
    have e2 : ts ++ targetsOf ((m, p) :: xs) = (ts ++ targetsOf [(m, p)]) ++ targetsOf xs := by
      rw [List.append_assoc]
      congr 1
      simp [targetsOf]
    rw [e1, e2, insertAll]
    by_cases hn : ((ss ++ declared m p.outs).map Prod.fst).Nodup
    · obtain ⟨s1, h1, h2⟩ := (H.insert m p).1 hn
      rw [h1]
      have := ih h2
      simpa [List.append_assoc] using this
    · rw [(H.insert m p).2 hn]
      refine ⟨fun h => ?_, fun _ => rfl⟩
      exfalso
      rw [List.map_append] at h
      exact hn (List.nodup_append.mp h).1

end Verif.Inline
