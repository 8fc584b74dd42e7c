import Verif.Props.Resource

/-!
# C49: intervals on resource paths
-/

namespace Verif.Resource

variable {T : Type} [DecidableEq T]

theorem ctx_of_scope {r : Region T} {order : List Nat} (wf : WF r order) (hl : r.LinearUse)
    {st : St} (hst : scopeNew r order = some st) :
    Ctx r order [defaultFlow r] r.Through st := by
  obtain ⟨st', hst', hi⟩ := compute_spec wf (default_follows r)
  obtain rfl : st' = st := by
    unfold scopeNew at hst
    rw [hst] at hst'
    exact (Option.some.inj hst').symm
  exact ⟨wf, default_follows r, hl, default_injective r, hi⟩

/-! ### Creating intervals -/

/-- `try_new` never panics; if it succeeds, the result is a part of the path of the given resource
that reaches from the first node to the last. -/
theorem C49_try_new (r : Region T) (order : List Nat) (wf : WF r order) (hl : r.LinearUse)
    (st : St) (hst : scopeNew r order = some st) (res s e : Nat) :
    ∃ x, tryNew st res s e = some x ∧
      ∀ i, x = .ok i → i.Good r r.Through ∧ i.startNode = s ∧ i.endNode = e ∧
        i.resourceId st = some res ∧ i.Covers r r.Through s ∧ i.Covers r r.Through e := by
  have c := ctx_of_scope wf hl hst
  have fin : ∀ i : Interval, i.Good r r.Through → i.startNode = s → i.endNode = e →
      st.at' i.first = .res res → i.Good r r.Through ∧ i.startNode = s ∧ i.endNode = e ∧
        i.resourceId st = some res ∧ i.Covers r r.Through s ∧ i.Covers r r.Through e := by
    intro i hg hs he hat
    obtain ⟨id, h1, _, h3⟩ := c.good_res hg
    rw [hat] at h1
    injection h1 with h1
    subst h1
    refine ⟨hg, hs, he, h3, ⟨i.first, ?_, .refl, c.good_path hg⟩, ⟨i.last, ?_, c.good_path hg, .refl⟩⟩
    · rw [Ctx.first_node, hs]
    · rw [Ctx.last_node, he]
  unfold tryNew
  cases hs : st.getPos s with
  | none => exact ⟨_, rfl, fun i h => absurd h (by simp)⟩
  | some ps =>
    cases he : st.getPos e with
    | none => exact ⟨_, rfl, fun i h => absurd h (by simp)⟩
    | some pe =>
      dsimp only
      by_cases hpp : ps > pe
      · rw [if_pos hpp]
        exact ⟨_, rfl, fun i h => absurd h (by simp)⟩
      · rw [if_neg hpp]
        by_cases hse : s = e
        · rw [if_pos hse]
          unfold newSingleton
          cases hi : st.getPort s res .inc with
          | some p =>
            refine ⟨_, rfl, ?_⟩
            rintro i h
            injection h with h
            subst h
            obtain ⟨hv, hat⟩ := c.getPort.1 hi
            exact fin _ (c.inv.soft.linear _ res hv hat) rfl hse hat
          | none =>
            cases ho : st.getPort s res .out with
            | some p =>
              refine ⟨_, rfl, ?_⟩
              rintro i h
              injection h with h
              subst h
              obtain ⟨hv, hat⟩ := c.getPort.1 ho
              exact fin _ (c.inv.soft.linear _ res hv hat) rfl hse hat
            | none => exact ⟨_, rfl, fun i h => absurd h (by simp)⟩
        · rw [if_neg hse]
          cases ho : st.getPort s res .out with
          | none => exact ⟨_, rfl, fun i h => absurd h (by simp)⟩
          | some p =>
            cases hi : st.getPort e res .inc with
            | none => exact ⟨_, rfl, fun i h => absurd h (by simp)⟩
            | some q =>
              refine ⟨_, rfl, ?_⟩
              rintro i h
              injection h with h
              subst h
              obtain ⟨hv, hat⟩ := c.getPort.1 ho
              obtain ⟨hv', hat'⟩ := c.getPort.1 hi
              refine fin _ ⟨c.inv.soft.linear _ res hv hat, ?_⟩ rfl rfl hat
              rcases c.comparable (c.eqv hv hv' hat hat') with h | h
              · exact h
              · exfalso
                rcases c.inv.path_node h with h' | h'
                · exact hse h'.symm
                · dsimp only at h'
                  have h1 := (c.nodes_of_pos hs).2.1
                  have h2 := (c.nodes_of_pos he).2.1
                  omega

/-- `try_new` accepts every part of a resource path: whenever a port of the first node reaches a
port of the last node on the path of the resource, and a first node other than the last one. -/
theorem C49_try_new_complete (r : Region T) (order : List Nat) (wf : WF r order) (hl : r.LinearUse)
    (st : St) (hst : scopeNew r order = some st) (res s e p q : Nat)
    (hlin : r.Linear ⟨s, .out, p⟩) (hres : st.resAt ⟨s, .out, p⟩ = some res)
    (hp : Relation.ReflTransGen (Link r r.Through) ⟨s, .out, p⟩ ⟨e, .inc, q⟩) :
    tryNew st res s e = some (.ok (.span s p e q)) := by
  have c := ctx_of_scope wf hl hst
  have h1 := c.getPos (valid_of_linear hlin)
  have hlin' := c.linear_eqv hlin (c.eqv_of_path hp)
  have h2 := c.getPos (valid_of_linear hlin')
  dsimp only at h1 h2
  have hat : st.at' ⟨s, .out, p⟩ = .res res := by
    obtain ⟨id, hid⟩ := c.inv.linear_res hlin
    rw [c.inv.resAt_eq (valid_of_linear hlin), hid] at hres
    rw [hid, Option.some.inj hres]
  have hat' : st.at' ⟨e, .inc, q⟩ = .res res := by
    rw [← c.inv.eqv_same (c.eqv_of_path hp)]
    exact hat
  have hlt : st.posOf s < st.posOf e := by
    rcases c.inv.key_path hp with h | h
    · injection h with _ h _; exact absurd h (by simp)
    · simp only [St.key] at h
      omega
  have hne : s ≠ e := by rintro rfl; omega
  unfold tryNew
  rw [h1, h2]
  dsimp only
  rw [if_neg (by omega), if_neg hne, c.getPort.2 ⟨valid_of_linear hlin, hat⟩,
    c.getPort.2 ⟨valid_of_linear hlin', hat'⟩]
  rfl

/-- In the example, the path of the first qubit from node 1 to node 4. -/
example : demo.Linear ⟨1, .out, 0⟩ ∧
    Relation.ReflTransGen (Link demo demo.Through) ⟨1, .out, 0⟩ ⟨4, .inc, 0⟩ := by
  have l1 : demo.Linear ⟨1, .out, 0⟩ := ⟨by decide, false, by decide, rfl⟩
  have l3 : demo.Linear ⟨3, .out, 0⟩ := ⟨by decide, false, by decide, rfl⟩
  have h1 : Link demo demo.Through ⟨1, .out, 0⟩ ⟨3, .inc, 0⟩ :=
    .wire ⟨by decide, by decide, ⟨false, by decide⟩, by decide⟩ l1
  have h2 : Link demo demo.Through ⟨3, .inc, 0⟩ ⟨3, .out, 0⟩ := by
    refine .through (by decide) ⟨rfl, [false, false], [false, false], false, by decide, ?_, rfl, rfl⟩
    intro i t _ _
    rfl
  have h3 : Link demo demo.Through ⟨3, .out, 0⟩ ⟨4, .inc, 0⟩ :=
    .wire ⟨by decide, by decide, ⟨false, by decide⟩, by decide⟩ l3
  exact ⟨l1, .head h1 (.head h2 (.single h3))⟩

/-! ### Extending intervals -/

/-- `try_extend` never panics on an interval of a resource path. -/
theorem C49_extend_no_panic (r : Region T) (order : List Nat) (wf : WF r order) (hl : r.LinearUse)
    (st : St) (hst : scopeNew r order = some st) (i : Interval) (hg : i.Good r r.Through) (n : Nat) :
    ∃ x, tryExtend r st i n = some x := by
  have c := ctx_of_scope wf hl hst
  rcases c.extend_cases hg n with ⟨_, h, _⟩ | ⟨_, _, h, _⟩ | ⟨_, _, j, h, _⟩ | ⟨_, _, j, h, _⟩ |
    ⟨_, _, _, h⟩ <;> exact ⟨_, h⟩

/-- A node right before the interval is added at its start. -/
theorem C49_extend_before (r : Region T) (order : List Nat) (wf : WF r order) (hl : r.LinearUse)
    (st : St) (hst : scopeNew r order = some st) (i : Interval) (hg : i.Good r r.Through) (n : Nat)
    (hb : i.Before r r.Through n) :
    ∃ j, tryExtend r st i n = some (.ok (some .inc, j)) ∧ j.Good r r.Through ∧
      j.startNode = n ∧ j.endNode = i.endNode ∧
      ∀ m, j.Covers r r.Through m ↔ i.Covers r r.Through m ∨ m = n := by
  have c := ctx_of_scope wf hl hst
  rcases c.extend_cases hg n with ⟨_, _, h, _⟩ | ⟨_, _, _, h, _⟩ | ⟨_, _, h⟩ | ⟨ha, _, _⟩ | ⟨h, _⟩
  · exact absurd hb h
  · exact absurd hb h
  · exact h
  · exfalso
    obtain ⟨id, hid, _, _⟩ := c.good_res hg
    obtain ⟨_, _, _, _, h1⟩ := c.before_source hg hid hb
    obtain ⟨_, _, _, _, h2⟩ := c.after_target hg hid ha
    have := (c.good_pos hg).2.2
    omega
  · exact absurd hb h

/-- A node right after the interval is added at its end. -/
theorem C49_extend_after (r : Region T) (order : List Nat) (wf : WF r order) (hl : r.LinearUse)
    (st : St) (hst : scopeNew r order = some st) (i : Interval) (hg : i.Good r r.Through) (n : Nat)
    (ha : i.After r r.Through n) :
    ∃ j, tryExtend r st i n = some (.ok (some .out, j)) ∧ j.Good r r.Through ∧
      j.startNode = i.startNode ∧ j.endNode = n ∧
      ∀ m, j.Covers r r.Through m ↔ i.Covers r r.Through m ∨ m = n := by
  have c := ctx_of_scope wf hl hst
  rcases c.extend_cases hg n with ⟨_, _, _, h, _⟩ | ⟨_, _, _, _, h⟩ | ⟨hb, _, _⟩ | ⟨_, _, h⟩ |
    ⟨_, h, _⟩
  · exact absurd ha h
  · exact absurd ha h
  · exfalso
    obtain ⟨id, hid, _, _⟩ := c.good_res hg
    obtain ⟨_, _, _, _, h1⟩ := c.before_source hg hid hb
    obtain ⟨_, _, _, _, h2⟩ := c.after_target hg hid ha
    have := (c.good_pos hg).2.2
    omega
  · exact h
  · exact absurd ha h

/-- A node of the interval leaves it unchanged. -/
theorem C49_extend_covered (r : Region T) (order : List Nat) (wf : WF r order) (hl : r.LinearUse)
    (st : St) (hst : scopeNew r order = some st) (i : Interval) (hg : i.Good r r.Through) (n : Nat)
    (hc : i.Covers r r.Through n) : tryExtend r st i n = some (.ok (none, i)) := by
  have c := ctx_of_scope wf hl hst
  rcases c.extend_cases hg n with ⟨_, _, _, _, h⟩ | ⟨_, _, h, _⟩ | ⟨_, h, _⟩ | ⟨_, h, _⟩ | ⟨_, _, h, _⟩
  · exact absurd hc h
  · exact h
  · exact absurd hc h
  · exact absurd hc h
  · exact absurd hc h

/-- Every other node of the resource path is refused.  Missing from the full claim: nodes outside of
the resource path, see `C49_unrelated_node_accepted`. -/
theorem C49_extend_refuses_partial (r : Region T) (order : List Nat) (wf : WF r order)
    (hl : r.LinearUse) (st : St) (hst : scopeNew r order = some st) (i : Interval)
    (hg : i.Good r r.Through) (n : Nat) (hn : i.OnPath r r.Through n)
    (hc : ¬ i.Covers r r.Through n) (hb : ¬ i.Before r r.Through n) (ha : ¬ i.After r r.Through n) :
    tryExtend r st i n = some (.error (.notContiguous n)) := by
  have c := ctx_of_scope wf hl hst
  rcases c.extend_cases hg n with ⟨hp, _⟩ | ⟨h1, h2, _⟩ | ⟨h, _⟩ | ⟨h, _⟩ | ⟨_, _, _, h⟩
  · exfalso
    obtain ⟨P, rfl, he⟩ := hn
    have := c.getPos (valid_of_linear (c.linear_eqv (c.good_first hg) he))
    rw [hp] at this
    exact absurd this (by simp)
  · exact absurd (c.covers_of_pos hg hn h1 h2) hc
  · exact absurd h hb
  · exact absurd h ha
  · exact h

/-- Node 4 is on the path of the first qubit, but not next to node 1. -/
example : let i := Interval.singleton 1 .out 0
    i.Good demo demo.Through ∧ i.OnPath demo demo.Through 4 ∧ ¬ i.Covers demo demo.Through 4 ∧
      ¬ i.Before demo demo.Through 4 ∧ ¬ i.After demo demo.Through 4 := by
  obtain ⟨st, hst, _⟩ := C50_same_resource demo [1, 2, 3, 4, 5] demo_wf.1
  have hg : (Interval.singleton 1 .out 0).Good demo demo.Through := ⟨by decide, false, by decide, rfl⟩
  have hx : tryExtend demo st (.singleton 1 .out 0) 4 = some (.error (.notContiguous 4)) := by
    have : (scopeNew demo [1, 2, 3, 4, 5]).bind
        (fun st => tryExtend demo st (.singleton 1 .out 0) 4) =
        some (.error (.notContiguous 4)) := rfl
    rw [hst] at this
    exact this
  have l3 : demo.Linear ⟨3, .out, 0⟩ := ⟨by decide, false, by decide, rfl⟩
  have h1 : Link demo demo.Through ⟨1, .out, 0⟩ ⟨3, .inc, 0⟩ :=
    .wire ⟨by decide, by decide, ⟨false, by decide⟩, by decide⟩ hg
  have h2 : Link demo demo.Through ⟨3, .inc, 0⟩ ⟨3, .out, 0⟩ :=
    .through (by decide) ⟨rfl, [false, false], [false, false], false, by decide,
      fun _ _ _ _ => rfl, rfl, rfl⟩
  have h3 : Link demo demo.Through ⟨3, .out, 0⟩ ⟨4, .inc, 0⟩ :=
    .wire ⟨by decide, by decide, ⟨false, by decide⟩, by decide⟩ l3
  refine ⟨hg, ⟨⟨4, .inc, 0⟩, rfl,
    ((Relation.EqvGen.rel _ _ h1).trans _ _ _ (.rel _ _ h2)).trans _ _ _ (.rel _ _ h3)⟩, ?_, ?_, ?_⟩
  · intro h
    rw [C49_extend_covered demo _ demo_wf.1 demo_wf.2 st hst _ hg 4 h] at hx
    exact absurd hx (by simp)
  · intro h
    obtain ⟨j, hj, _⟩ := C49_extend_before demo _ demo_wf.1 demo_wf.2 st hst _ hg 4 h
    rw [hj] at hx
    exact absurd hx (by simp)
  · intro h
    obtain ⟨j, hj, _⟩ := C49_extend_after demo _ demo_wf.1 demo_wf.2 st hst _ hg 4 h
    rw [hj] at hx
    exact absurd hx (by simp)

/-- Nodes outside of the resource path are refused if their position is outside of the interval
(or if they are not in the scope); otherwise they are silently treated as if they were covered. -/
theorem C49_extend_unrelated (r : Region T) (order : List Nat) (wf : WF r order)
    (hl : r.LinearUse) (st : St) (hst : scopeNew r order = some st) (i : Interval)
    (hg : i.Good r r.Through) (n : Nat) (hn : ¬ i.OnPath r r.Through n) :
    ∃ a b, st.getPos i.startNode = some a ∧ st.getPos i.endNode = some b ∧
      ((∃ p, st.getPos n = some p ∧ a ≤ p ∧ p ≤ b ∧ tryExtend r st i n = some (.ok (none, i))) ∨
       ((∀ p, st.getPos n = some p → p < a ∨ b < p) ∧ ∃ e, tryExtend r st i n = some (.error e))) := by
  have c := ctx_of_scope wf hl hst
  obtain ⟨h1, h2, _⟩ := c.good_pos hg
  refine ⟨_, _, h1, h2, ?_⟩
  have onb : ¬ i.Before r r.Through n := by
    rintro ⟨p, q, hl, he⟩
    exact hn ⟨_, rfl, ((Relation.EqvGen.rel _ _ hl).trans _ _ _ he).symm⟩
  have ona : ¬ i.After r r.Through n := by
    rintro ⟨p, q, hl, he⟩
    exact hn ⟨_, rfl, (he.symm).trans _ _ _ (.rel _ _ hl)⟩
  cases hp : st.getPos n with
  | none =>
    right
    refine ⟨fun p h => absurd h (by simp), .notOnPath n, ?_⟩
    unfold tryExtend
    rw [hp]
  | some p =>
    have hpp := (c.nodes_of_pos hp).2.1
    rcases c.extend_cases hg n with ⟨h, _⟩ | ⟨h1, h2, h, _⟩ | ⟨h, _⟩ | ⟨h, _⟩ | ⟨_, _, _, h⟩
    · rw [hp] at h; exact absurd h (by simp)
    · exact .inl ⟨p, rfl, by omega, by omega, h⟩
    · exact absurd h onb
    · exact absurd h ona
    · right
      refine ⟨?_, _, h⟩
      intro p' h'
      obtain rfl := Option.some.inj h'
      by_contra hcon
      have : tryExtend r st i n = some (.ok (none, i)) := by
        unfold tryExtend
        rw [hp]
        dsimp only
        rw [c.order_eq hg, if_neg (by omega), if_neg (by omega)]
      rw [h] at this
      exact absurd this (by simp)

/-- In the example, a Hadamard on one qubit is accepted into the interval of a Hadamard on the other
qubit, though it is not on its resource path. -/
theorem C49_unrelated_node_accepted :
    WF demo [1, 2, 3, 4, 5] ∧ demo.LinearUse ∧
    (Interval.singleton 1 .inc 0).Good demo demo.Through ∧
    ¬ (Interval.singleton 1 .inc 0).OnPath demo demo.Through 2 ∧
    ∃ st, scopeNew demo [1, 2, 3, 4, 5] = some st ∧
      tryExtend demo st (.singleton 1 .inc 0) 2 = some (.ok (none, .singleton 1 .inc 0)) := by
  obtain ⟨st, hst, h1, _, h3⟩ := C50_same_resource demo [1, 2, 3, 4, 5] demo_wf.1
  have hg : (Interval.singleton 1 .inc 0).Good demo demo.Through := ⟨by decide, false, by decide, rfl⟩
  refine ⟨demo_wf.1, demo_wf.2, hg, ?_, st, hst, ?_⟩
  · rintro ⟨P, hP, he⟩
    have c := ctx_of_scope demo_wf.1 demo_wf.2 hst
    have hlin : demo.Linear P := c.linear_eqv hg he
    have hr := (h3 _ _ hg hlin).2 he
    obtain ⟨n, d, k⟩ := P
    dsimp only at hP
    subst hP
    obtain ⟨_, t, ht, _⟩ := hlin
    have hk : k = 0 := by
      cases d <;>
      · have hs : demo.sig 2 = some ([false], [false]) := by decide
        simp only [Region.type?, hs] at ht
        cases k with
        | zero => rfl
        | succ k => simp at ht
    subst hk
    have h2 : (scopeNew demo [1, 2, 3, 4, 5]).map (fun st =>
        (st.resAt ⟨1, .inc, 0⟩ == st.resAt ⟨2, .inc, 0⟩,
          st.resAt ⟨1, .inc, 0⟩ == st.resAt ⟨2, .out, 0⟩)) = some (false, false) := by decide
    rw [hst] at h2
    simp only [Option.map_some, Option.some.injEq, Prod.mk.injEq, beq_eq_false_iff_ne] at h2
    cases d
    · exact h2.1 hr
    · exact h2.2 hr
  · have : (scopeNew demo [1, 2, 3, 4, 5]).bind
        (fun st => tryExtend demo st (.singleton 1 .inc 0) 2) =
        some (.ok (none, .singleton 1 .inc 0)) := rfl
    rw [hst] at this
    exact this

/-! ### The nodes of an interval -/

/-- `nodes_in_interval` lists exactly the nodes that the interval covers, in their order on the
path. -/
theorem C49_nodes_in_interval (r : Region T) (order : List Nat) (wf : WF r order)
    (hl : r.LinearUse) (st : St) (hst : scopeNew r order = some st) (i : Interval)
    (hg : i.Good r r.Through) :
    ∃ k, ∀ fuel, k ≤ fuel → ∃ l, nodesIn r st fuel i = some l ∧
      (∀ m, m ∈ l ↔ i.Covers r r.Through m) ∧
      l.Pairwise fun a b => ∃ x y, st.getPos a = some x ∧ st.getPos b = some y ∧ x < y := by
  have c := ctx_of_scope wf hl hst
  refine ⟨st.posOf i.endNode - st.posOf i.startNode + 1, ?_⟩
  intro fuel hf
  obtain ⟨l, h1, h2, h3⟩ := c.nodesIn_spec hg hf
  refine ⟨l, h1, h2, ?_⟩
  have hpos : ∀ m ∈ l, st.getPos m = some (st.posOf m) := by
    intro m hm
    obtain ⟨P, rfl, h, _⟩ := (h2 m).1 hm
    exact c.getPos (valid_of_linear (c.linear_eqv (c.good_first hg) (c.eqv_of_path h)))
  refine h3.imp_of_mem ?_
  intro a b ha hb hab
  exact ⟨_, _, hpos a ha, hpos b hb, hab⟩

/-- The intervals of the example, extended node by node. -/
example : ((scopeNew demo [1, 2, 3, 4, 5]).bind fun st =>
    tryExtend demo st (.singleton 3 .inc 0) 1) = some (.ok (some .inc, .span 1 0 3 0)) := rfl

example : ((scopeNew demo [1, 2, 3, 4, 5]).bind fun st =>
    tryExtend demo st (.span 1 0 3 0) 4) = some (.ok (some .out, .span 1 0 4 0)) := rfl

example : ((scopeNew demo [1, 2, 3, 4, 5]).bind fun st =>
    tryExtend demo st (.singleton 1 .inc 0) 4) = some (.error (.notContiguous 4)) := rfl

example : ((scopeNew demo [1, 2, 3, 4, 5]).bind fun st =>
    nodesIn demo st 4 (.span 1 0 4 0)) = some [1, 3, 4] := by decide

/-- Node 1 comes right before the interval of node 3 on the first qubit, node 4 right after. -/
example : (Interval.singleton 3 .inc 0).Before demo demo.Through 1 := by
  refine ⟨0, 0, .wire ⟨by decide, by decide, ⟨false, by decide⟩, by decide⟩
    ⟨by decide, false, by decide, rfl⟩, .refl _⟩

example : (Interval.singleton 3 .out 0).After demo demo.Through 4 := by
  refine ⟨0, 0, .wire ⟨by decide, by decide, ⟨false, by decide⟩, by decide⟩
    ⟨by decide, false, by decide, rfl⟩, .refl _⟩

end Verif.Resource
