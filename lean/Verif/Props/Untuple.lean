import Verif.Lemmas.Untuple

/-!
# Property C76: removing tuples that are packed and unpacked
-/

namespace Tket.Untuple

open Tket.Chunks (Src Dst Graph)

variable {O : Type} {sig : O → List Ty × List Ty} {c c' : Circ O}

theorem step_cases (h : WF sig c) (hst : Step sig c c') : ∃ n ts, n ∈ c.nodes ∧
    c.op n = .pack ts ∧ unpacks c n ≠ [] ∧ AllUsed c n ts.length ∧ (rest c n).length ≤ 1 ∧
    c' = apply c (theRewrite c n ts) := by
  obtain ⟨n, hmem, r, hr, rfl⟩ := hst
  obtain ⟨ts, h1, h2, h3, h4, h5⟩ := makeRewrite_some h hmem hr
  exact ⟨n, ts, hmem, h1, h2, h3, h4, by rw [h5]⟩

variable {n : Nat} {ts : List Ty}

theorem fresh_not_mem : fresh c ∉ c.nodes := fun h => absurd (lt_fresh h) (Nat.lt_irrefl _)

theorem fresh_not_removed (h : WF sig c) (hn : c.op n = .pack ts) (hmem : n ∈ c.nodes) :
    fresh c ∉ removed c n := by
  intro hf
  rcases mem_removed.1 hf with hf | hf
  · exact fresh_not_mem (h.dst_mem _ _ _ (unpack_link h hn hf).1)
  · rw [← hf] at hmem
    exact fresh_not_mem hmem

theorem node_of_not_inside {R : List Nat} {m p : Nat} (h : (Src.node m p).inside R = false) : m ∉ R := by
  simpa [Src.inside] using h

theorem node_of_not_insideD {R : List Nat} {m p : Nat} (h : (Dst.node m p).inside R = false) : m ∉ R := by
  simpa [Dst.inside] using h

theorem rest_pos : decide (0 < (rest c n).length) = true ↔ rest c n ≠ [] := by
  rw [decide_eq_true_eq, List.length_pos_iff]

theorem mem_nodes_apply {m : Nat} : m ∈ (apply c (theRewrite c n ts)).nodes ↔
    (m ∈ c.nodes ∧ m ∉ removed c n) ∨ (rest c n ≠ [] ∧ m = fresh c) := by
  unfold apply
  simp only [List.mem_append, List.mem_filter, Bool.not_eq_true', List.contains_eq_mem,
    decide_eq_false_iff_not]
  refine or_congr Iff.rfl ?_
  by_cases hr : rest c n = []
  · simp [hr]
  · rw [if_pos (rest_pos.2 hr)]
    simp [hr]

theorem op_apply_old {m : Nat} (hm : m ∈ c.nodes) :
    (apply c (theRewrite c n ts)).op m = c.op m := by
  unfold apply
  simp only
  rw [if_neg]
  rintro ⟨_, rfl⟩
  exact fresh_not_mem hm

theorem op_apply_new (hr : rest c n ≠ []) :
    (apply c (theRewrite c n ts)).op (fresh c) = .pack ts := by
  unfold apply
  simp only
  rw [if_pos ⟨rest_pos.2 hr, trivial⟩]

/-! ## Meaning -/

theorem apply_runs (h : WF sig c) (hn : c.op n = .pack ts) (hmem : n ∈ c.nodes)
    (h1 : (rest c n).length ≤ 1) (sem : O → (Nat → Val) → (Nat → Val) → Prop)
    (xs ys : List Val) (hx : xs.length = c.ins.length) :
    (apply c (theRewrite c n ts)).Runs sem xs ys ↔ c.Runs sem xs ys := by
  constructor
  · rintro ⟨vin, vout, ho, hl⟩
    -- the values that are packed
    have hv : ∀ p, ∃ v, ∀ s, (s, .node n p) ∈ c.graph → srcVal xs vout s = some v := by
      intro p
      by_cases hp : ∃ s, (s, .node n p) ∈ c.graph
      · obtain ⟨s, hs⟩ := hp
        obtain ⟨t, ht, _⟩ := h.typed _ _ hs
        have : ∃ v, srcVal xs vout s = some v := by
          cases s with
          | node m q => exact ⟨_, rfl⟩
          | input i =>
            simp only [Circ.srcTy] at ht
            have hi := (List.getElem?_eq_some_iff.1 ht).1
            exact ⟨xs[i]'(by omega), List.getElem?_eq_getElem (by omega)⟩
        obtain ⟨v, hv⟩ := this
        exact ⟨v, fun s' hs' => by rw [h.uniq hs' hs]; exact hv⟩
      · exact ⟨.base 0, fun s hs => absurd ⟨s, hs⟩ hp⟩
    choose w hw using hv
    refine ⟨fun m p => if m = n then w p else
        if m ∈ unpacks c n then .tup ((List.range ts.length).map w) else vin m p,
      fun m p => if m = n then .tup ((List.range ts.length).map w) else
        if m ∈ unpacks c n then w p else vout m p, ?_, ?_⟩
    · intro m hm
      by_cases e : m = n
      · subst e
        simp only [if_true]
        rw [hn]
        rfl
      · by_cases e2 : m ∈ unpacks c n
        · simp only [if_neg e, if_pos e2]
          rw [(unpack_link h hn e2).2]
          rfl
        · simp only [if_neg e, if_neg e2]
          have := ho m (mem_nodes_apply.2 (Or.inl ⟨hm, by simp [removed, e, e2]⟩))
          rw [op_apply_old hm] at this
          exact this
    · intro s d hg
      -- sources and targets outside keep their values
      have hS : ∀ s : Src, s.inside (removed c n) = false →
          srcVal xs (fun m p => if m = n then .tup ((List.range ts.length).map w) else
            if m ∈ unpacks c n then w p else vout m p) s = srcVal xs vout s := by
        intro s hs
        cases s with
        | input i => rfl
        | node m p =>
          have := node_of_not_inside hs
          rw [mem_removed] at this
          simp only [not_or] at this
          simp only [srcVal, if_neg this.1, if_neg this.2]
      have hD : ∀ d : Dst, d.inside (removed c n) = false →
          dstVal ys (fun m p => if m = n then w p else
            if m ∈ unpacks c n then .tup ((List.range ts.length).map w) else vin m p) d =
            dstVal ys vin d := by
        intro d hd
        cases d with
        | output i => rfl
        | node m p =>
          have := node_of_not_insideD hd
          rw [mem_removed] at this
          simp only [not_or] at this
          simp only [dstVal, if_neg this.1, if_neg this.2]
      by_cases hd : d.inside (removed c n)
      · obtain ⟨m, hm, p, rfl⟩ := insideD_iff.1 hd
        rcases mem_removed.1 hm with hm | rfl
        · obtain ⟨hlk, hop⟩ := unpack_link h hn hm
          obtain ⟨t, _, ht⟩ := h.typed _ _ hg
          simp only [Circ.dstTy, hop, Op.ins] at ht
          have hp0 : p = 0 := by
            cases p with
            | zero => rfl
            | succ p => simp at ht
          subst hp0
          rw [h.uniq hg hlk]
          have hne : m ≠ n := by rintro rfl; exact pack_not_unpack hn hm
          simp only [srcVal, dstVal, if_true, if_neg hne, if_pos hm]
        · rw [hS s (pack_source h hn hg), hw p s hg]
          simp only [dstVal, if_true]
      · have hd' : d.inside (removed c n) = false := by simpa using hd
        rw [hD d hd']
        by_cases hs : s.inside (removed c n)
        · obtain ⟨m, hm, p, rfl⟩ := insideS_iff.1 hs
          rcases mem_removed.1 hm with hm | rfl
          · obtain ⟨t, ht, _⟩ := h.typed _ _ hg
            simp only [Circ.srcTy, (unpack_link h hn hm).2, Op.outs] at ht
            have hp := (List.getElem?_eq_some_iff.1 ht).1
            obtain ⟨s', hs'⟩ := h.linked n hmem p (by rw [hn]; exact hp)
            have := hl s' d ((mem_apply h hn hmem h1).2
              (Or.inr (Or.inl ⟨m, hm, p, hp, hg, hs'⟩)))
            rw [← this, hw p s' hs']
            have hne : m ≠ n := by rintro rfl; exact pack_not_unpack hn hm
            simp only [srcVal, if_neg hne, if_pos hm]
          · obtain ⟨t, ht, _⟩ := h.typed _ _ hg
            simp only [Circ.srcTy, hn, Op.outs] at ht
            have hp0 : p = 0 := by
              cases p with
              | zero => rfl
              | succ p => simp at ht
            subst hp0
            have hr : rest c m ≠ [] := (rest_ne_nil h hn).2 ⟨d, hg, hd'⟩
            have e1 := hl (.node (fresh c) 0) d ((mem_apply h hn hmem h1).2
              (Or.inr (Or.inr (Or.inl ⟨hg, hd', rfl⟩))))
            rw [← e1]
            have e2 := ho (fresh c) (mem_nodes_apply.2 (Or.inr ⟨hr, rfl⟩))
            rw [op_apply_new hr] at e2
            simp only [OpRuns] at e2
            simp only [srcVal, if_true, e2, Option.some.injEq]
            congr 1
            refine List.map_congr_left ?_
            intro p hp
            have hp := List.mem_range.1 hp
            obtain ⟨s', hs'⟩ := h.linked m hmem p (by rw [hn]; exact hp)
            have e3 := hl s' (.node (fresh c) p) ((mem_apply h hn hmem h1).2
              (Or.inr (Or.inr (Or.inr ⟨hr, p, hp, hs', rfl⟩))))
            rw [hw p s' hs'] at e3
            simpa [dstVal] using e3
        · rw [hS s (by simpa using hs)]
          exact hl s d ((mem_apply h hn hmem h1).2 (Or.inl ⟨hg, by simpa using hs, hd'⟩))
  · rintro ⟨vin, vout, ho, hl⟩
    -- unpacked values are the packed ones
    have hun : ∀ m ∈ unpacks c n, ∀ p, p < ts.length → vout m p = vin n p := by
      intro m hm p hp
      obtain ⟨hlk, hop⟩ := unpack_link h hn hm
      have e1 := ho m (h.dst_mem _ _ _ hlk)
      rw [hop] at e1
      have e2 := ho n hmem
      rw [hn] at e2
      have e3 := hl _ _ hlk
      simp only [srcVal, dstVal, Option.some.injEq] at e3
      simp only [OpRuns] at e1 e2
      rw [← e3, e2] at e1
      injection e1 with e1
      have := List.map_inj_left.1 e1 p (List.mem_range.2 hp)
      exact this.symm
    refine ⟨fun m p => if m = fresh c then vin n p else vin m p,
      fun m p => if m = fresh c then vout n p else vout m p, ?_, ?_⟩
    · intro m hm
      rcases mem_nodes_apply.1 hm with ⟨hm, _⟩ | ⟨hr, rfl⟩
      · have hne : m ≠ fresh c := by rintro rfl; exact fresh_not_mem hm
        simp only [if_neg hne, op_apply_old hm]
        exact ho m hm
      · rw [op_apply_new hr]
        simp only [if_true]
        have := ho n hmem
        rw [hn] at this
        exact this
    · have hS : ∀ s d, (s, d) ∈ c.graph → srcVal xs (fun m p => if m = fresh c then vout n p else
          vout m p) s = srcVal xs vout s := by
        intro s d hg
        cases s with
        | input i => rfl
        | node m p =>
          have hne : m ≠ fresh c := by rintro rfl; exact fresh_not_mem (h.src_mem _ _ _ hg)
          simp only [srcVal, if_neg hne]
      have hD : ∀ s d, (s, d) ∈ c.graph → dstVal ys (fun m p => if m = fresh c then vin n p else
          vin m p) d = dstVal ys vin d := by
        intro s d hg
        cases d with
        | output i => rfl
        | node m p =>
          have hne : m ≠ fresh c := by rintro rfl; exact fresh_not_mem (h.dst_mem _ _ _ hg)
          simp only [dstVal, if_neg hne]
      intro s d hg
      rcases (mem_apply h hn hmem h1).1 hg with ⟨hg, _⟩ | ⟨m, hm, p, hp, hg, hs⟩ | ⟨hg0, _, rfl⟩ |
        ⟨hr, p, hp, hs, rfl⟩
      · rw [hS s d hg, hD s d hg]
        exact hl s d hg
      · rw [hS s _ hs, hD _ d hg, hl _ _ hs, ← hl _ _ hg]
        simp only [srcVal, dstVal, hun m hm p hp]
      · rw [hD _ d hg0, ← hl _ _ hg0]
        simp only [srcVal, if_true]
      · rw [hS s _ hs, hl _ _ hs]
        simp only [dstVal, if_true]

/-- **C76 (meaning).** Applying a rewrite found by `find_tuple_unpack_rewrites` does not change what
the circuit does. -/
theorem C76_meaning (h : WF sig c) (hst : Step sig c c')
    (sem : O → (Nat → Val) → (Nat → Val) → Prop) (xs ys : List Val)
    (hx : xs.length = c.ins.length) : c'.Runs sem xs ys ↔ c.Runs sem xs ys := by
  obtain ⟨n, ts, hmem, hn, _, _, h1, rfl⟩ := step_cases h hst
  exact apply_runs h hn hmem h1 sem xs ys hx

/-! ## The result is a valid circuit -/

theorem outputs_nodup (h : WF sig c) (hn : c.op n = .pack ts) :
    (theRewrite c n ts).outputs.Nodup := by
  refine List.nodup_append.2 ⟨?_, ?_, ?_⟩
  · rw [List.nodup_flatMap]
    refine ⟨fun m _ => List.nodup_range.map (fun a b e => by simpa using e), ?_⟩
    refine List.Pairwise.imp ?_ (unpacks_nodup h hn)
    intro a b hne x hx hy
    simp only [List.mem_map] at hx hy
    obtain ⟨_, _, rfl⟩ := hx
    obtain ⟨_, _, e⟩ := hy
    simp at e
    exact hne e.1.symm
  · split <;> simp
  · intro a ha b hb e
    subst e
    rw [List.mem_flatMap] at ha
    obtain ⟨m, hm, hx⟩ := ha
    rw [List.mem_map] at hx
    obtain ⟨p, _, rfl⟩ := hx
    split at hb
    · simp at hb
    · simp at hb
      rw [hb.1] at hm
      exact pack_not_unpack hn hm

theorem outLinks_snd (h : WF sig c) (hn : c.op n = .pack ts) (hmem : n ∈ c.nodes)
    (h1 : (rest c n).length ≤ 1) : (outLinks c (theRewrite c n ts)).map (·.2) =
      (theRewrite c n ts).outputs.flatMap (users c (removed c n)) := by
  unfold outLinks
  rw [List.map_flatMap]
  have e1 : (theRewrite c n ts).outputs =
      ((theRewrite c n ts).outputs.zip (theRewrite c n ts).rep).map (·.1) := by
    rw [theRewrite_zip h1]
    rw [List.map_append, List.map_flatMap]
    refine congrArg₂ _ ?_ ?_
    · refine List.flatMap_congr (fun m _ => ?_)
      rw [List.map_map]
      rfl
    · split <;> rfl
  conv => rhs; rw [e1, List.flatMap_map]
  refine List.flatMap_congr ?_
  intro x hx
  have hres : ∃ s, resolve c (theRewrite c n ts) x.2 = some s := by
    rw [theRewrite_zip h1, List.mem_append] at hx
    rcases hx with hx | hx
    · rw [List.mem_flatMap] at hx
      obtain ⟨m, _, hx⟩ := hx
      rw [List.mem_map] at hx
      obtain ⟨p, hp, rfl⟩ := hx
      have hp := List.mem_range.1 hp
      obtain ⟨s, hs⟩ := h.linked n hmem p (by rw [hn]; exact hp)
      exact ⟨s, resolve_inp h hp hs⟩
    · split at hx
      · simp at hx
      · simp at hx
        subst hx
        exact ⟨_, rfl⟩
  obtain ⟨s, hs⟩ := hres
  rw [hs]
  simp only [List.map_map]
  exact (List.map_congr_left (fun _ _ => rfl)).trans (List.map_id _)

theorem packLinks_snd (h : WF sig c) (hn : c.op n = .pack ts) (hmem : n ∈ c.nodes) :
    (packLinks c 0 ((List.range ts.length).map (fun p => (n, p)))).map (·.2) =
      (List.range ts.length).map (fun p => .node (fresh c) p) := by
  have aux : ∀ (k i : Nat), i + k = ts.length →
      (packLinks c i ((List.range' i k).map (fun p => (n, p)))).map (·.2) =
        (List.range' i k).map (fun p => .node (fresh c) p) := by
    intro k
    induction k with
    | zero => intro i _; rfl
    | succ k ih =>
      intro i hi
      obtain ⟨s', hs'⟩ := h.linked n hmem i (by rw [hn]; change i < ts.length; omega)
      simp only [List.range'_succ, List.map_cons, packLinks, srcOf_eq h hs']
      rw [ih (i + 1) (by omega)]
  have := aux ts.length 0 (by omega)
  rw [← List.range_eq_range'] at this
  exact this

theorem users_nodup (h : WF sig c) (R : List Nat) (b : Nat × Nat) : (users c R b).Nodup :=
  List.Nodup.sublist (List.Sublist.map _ List.filter_sublist) h.one

theorem apply_one (h : WF sig c) (hn : c.op n = .pack ts) (hmem : n ∈ c.nodes)
    (h1 : (rest c n).length ≤ 1) :
    ((apply c (theRewrite c n ts)).graph.map (·.2)).Nodup := by
  have hpk : ∀ d ∈ ((if (theRewrite c n ts).pack then
      packLinks c 0 (theRewrite c n ts).inputs else []) : Graph).map (·.2),
      ∃ p, d = .node (fresh c) p := by
    intro d hd
    split at hd
    · rw [packLinks_snd h hn hmem, List.mem_map] at hd
      obtain ⟨p, _, rfl⟩ := hd
      exact ⟨p, rfl⟩
    · simp at hd
  have hou : ∀ d ∈ (outLinks c (theRewrite c n ts)).map (·.2),
      ∃ m ∈ removed c n, ∃ p, (.node m p, d) ∈ c.graph := by
    intro d hd
    rw [outLinks_snd h hn hmem h1, List.mem_flatMap] at hd
    obtain ⟨b, hb, hd⟩ := hd
    refine ⟨b.1, ?_, b.2, (mem_users.1 hd).1⟩
    rw [List.mem_append] at hb
    rcases hb with hb | hb
    · rw [List.mem_flatMap] at hb
      obtain ⟨m, hm, hb⟩ := hb
      rw [List.mem_map] at hb
      obtain ⟨p, _, rfl⟩ := hb
      exact mem_removed.2 (Or.inl hm)
    · split at hb
      · simp at hb
      · simp at hb
        subst hb
        exact mem_removed.2 (Or.inr rfl)
  have hnf : ∀ s d, (s, d) ∈ c.graph → ∀ p, d ≠ .node (fresh c) p := by
    rintro s _ hg p rfl
    exact fresh_not_mem (h.dst_mem _ _ _ hg)
  unfold apply
  simp only [List.map_append]
  refine List.nodup_append.2 ⟨?_, List.nodup_append.2 ⟨?_, ?_, ?_⟩, ?_⟩
  · exact List.Nodup.sublist (List.Sublist.map _ List.filter_sublist) h.one
  · rw [outLinks_snd h hn hmem h1, List.nodup_flatMap]
    refine ⟨fun b _ => users_nodup h _ b, ?_⟩
    refine List.Pairwise.imp ?_ (outputs_nodup h hn)
    intro a b hne d hd hd'
    have := h.uniq (mem_users.1 hd).1 (mem_users.1 hd').1
    simp at this
    exact hne (Prod.ext this.1 this.2)
  · split
    · rw [packLinks_snd h hn hmem]
      exact List.nodup_range.map (fun a b e => by simpa using e)
    · simp
  · intro a ha b hb e
    subst e
    obtain ⟨m, _, p, hg⟩ := hou a ha
    obtain ⟨q, hq⟩ := hpk a hb
    exact hnf _ _ hg q hq
  · intro a ha b hb e
    subst e
    rw [List.mem_map] at ha
    obtain ⟨⟨s, d⟩, hsd, rfl⟩ := ha
    simp only [List.mem_filter, Bool.and_eq_true, Bool.not_eq_true'] at hsd
    rcases List.mem_append.1 hb with hb | hb
    · obtain ⟨m, hm, p, hg⟩ := hou _ hb
      have := h.uniq hsd.1 hg
      subst this
      exact node_of_not_inside hsd.2.1 hm
    · obtain ⟨q, hq⟩ := hpk _ hb
      exact hnf _ _ hsd.1 q hq

theorem getElem?_of_tuple_source (h : WF sig c) {s : Src} {m p : Nat} {t : Ty}
    (hl : (s, .node m p) ∈ c.graph) (ht : ((c.op m).ins sig)[p]? = some t) :
    c.srcTy sig s = some t := by
  obtain ⟨t', h1, h2⟩ := h.typed _ _ hl
  simp only [Circ.dstTy] at h2
  rw [h2] at ht
  rw [h1, ht]

/-- **C76 (valid result).** The circuit is still valid after the rewrite. -/
theorem C76_valid (h : WF sig c) (hst : Step sig c c') : WF sig c' := by
  obtain ⟨n, ts, hmem, hn, hne, hused, h1, rfl⟩ := step_cases h hst
  have hfr := fresh_not_removed h hn hmem
  have srcTy_old : ∀ s d, (s, d) ∈ c.graph →
      (apply c (theRewrite c n ts)).srcTy sig s = c.srcTy sig s := by
    intro s d hg
    cases s with
    | input i => rfl
    | node m p => simp only [Circ.srcTy, op_apply_old (h.src_mem _ _ _ hg)]
  have dstTy_old : ∀ s d, (s, d) ∈ c.graph →
      (apply c (theRewrite c n ts)).dstTy sig d = c.dstTy sig d := by
    intro s d hg
    cases d with
    | output i => rfl
    | node m p => simp only [Circ.dstTy, op_apply_old (h.dst_mem _ _ _ hg)]
  refine ⟨?_, apply_one h hn hmem h1, ?_, ?_, ?_, ?_, ?_, ?_⟩
  · unfold apply
    simp only
    refine List.nodup_append.2 ⟨h.nodup.filter _, by split <;> simp, ?_⟩
    intro a ha b hb e
    subst e
    split at hb
    · simp at hb
      subst hb
      exact fresh_not_mem (List.mem_of_mem_filter ha)
    · simp at hb
  · intro s d hg
    rcases (mem_apply h hn hmem h1).1 hg with ⟨hg, _⟩ | ⟨m, hm, p, hp, hg, hs⟩ | ⟨hg0, hd, rfl⟩ |
        ⟨hr, p, hp, hs, rfl⟩
    · rw [srcTy_old _ _ hg, dstTy_old _ _ hg]
      exact h.typed _ _ hg
    · rw [srcTy_old _ _ hs, dstTy_old _ _ hg]
      obtain ⟨t, t1, t2⟩ := h.typed _ _ hg
      refine ⟨t, ?_, t2⟩
      simp only [Circ.srcTy, (unpack_link h hn hm).2, Op.outs] at t1
      exact getElem?_of_tuple_source h hs (by rw [hn]; exact t1)
    · rw [dstTy_old _ _ hg0]
      obtain ⟨t, t1, t2⟩ := h.typed _ _ hg0
      refine ⟨t, ?_, t2⟩
      simp only [Circ.srcTy, hn] at t1
      simp only [Circ.srcTy, op_apply_new ((rest_ne_nil h hn).2 ⟨d, hg0, hd⟩)]
      exact t1
    · rw [srcTy_old _ _ hs]
      obtain ⟨t, t1, t2⟩ := h.typed _ _ hs
      refine ⟨t, t1, ?_⟩
      simp only [Circ.dstTy, hn] at t2
      simp only [Circ.dstTy, op_apply_new hr]
      exact t2
  · intro m p d hg
    rw [mem_nodes_apply]
    rcases (mem_apply h hn hmem h1).1 hg with ⟨hg, hs, _⟩ | ⟨k, hk, q, hq, hg, hs⟩ |
        ⟨hg0, hd, e⟩ | ⟨hr, q, hq, hs, rfl⟩
    · exact Or.inl ⟨h.src_mem _ _ _ hg, node_of_not_inside hs⟩
    · exact Or.inl ⟨h.src_mem _ _ _ hs, node_of_not_inside (pack_source h hn hs)⟩
    · simp at e
      exact Or.inr ⟨(rest_ne_nil h hn).2 ⟨d, hg0, hd⟩, e.1⟩
    · exact Or.inl ⟨h.src_mem _ _ _ hs, node_of_not_inside (pack_source h hn hs)⟩
  · intro s m p hg
    rw [mem_nodes_apply]
    rcases (mem_apply h hn hmem h1).1 hg with ⟨hg, _, hd⟩ | ⟨k, hk, q, hq, hg, hs⟩ |
        ⟨hg0, hd, _⟩ | ⟨hr, q, hq, hs, e⟩
    · exact Or.inl ⟨h.dst_mem _ _ _ hg, node_of_not_insideD hd⟩
    · exact Or.inl ⟨h.dst_mem _ _ _ hg, node_of_not_insideD (unpack_user h hn hk hg)⟩
    · exact Or.inl ⟨h.dst_mem _ _ _ hg0, node_of_not_insideD hd⟩
    · simp at e
      exact Or.inr ⟨hr, e.1⟩
  · intro m hm p hp
    rcases mem_nodes_apply.1 hm with ⟨hm, hnr⟩ | ⟨hr, rfl⟩
    · rw [op_apply_old hm] at hp
      obtain ⟨s, hs⟩ := h.linked m hm p hp
      have hd : (Dst.node m p).inside (removed c n) = false := by simpa [Dst.inside] using hnr
      by_cases hin : s.inside (removed c n)
      · obtain ⟨k, hk, q, rfl⟩ := insideS_iff.1 hin
        obtain ⟨t, t1, _⟩ := h.typed _ _ hs
        rcases mem_removed.1 hk with hk | rfl
        · simp only [Circ.srcTy, (unpack_link h hn hk).2, Op.outs] at t1
          have hq := (List.getElem?_eq_some_iff.1 t1).1
          obtain ⟨s', hs'⟩ := h.linked n hmem q (by rw [hn]; exact hq)
          exact ⟨s', (mem_apply h hn hmem h1).2 (Or.inr (Or.inl ⟨k, hk, q, hq, hs, hs'⟩))⟩
        · simp only [Circ.srcTy, hn, Op.outs] at t1
          have hq : q = 0 := by
            cases q with
            | zero => rfl
            | succ q => simp at t1
          subst hq
          exact ⟨_, (mem_apply h hn hmem h1).2 (Or.inr (Or.inr (Or.inl ⟨hs, hd, rfl⟩)))⟩
      · exact ⟨s, (mem_apply h hn hmem h1).2 (Or.inl ⟨hs, by simpa using hin, hd⟩)⟩
    · rw [op_apply_new hr] at hp
      obtain ⟨s, hs⟩ := h.linked n hmem p (by rw [hn]; exact hp)
      exact ⟨s, (mem_apply h hn hmem h1).2 (Or.inr (Or.inr (Or.inr ⟨hr, p, hp, hs, rfl⟩)))⟩
  · intro j hj
    obtain ⟨s, hs⟩ := h.output j hj
    have hd : (Dst.output j).inside (removed c n) = false := rfl
    by_cases hin : s.inside (removed c n)
    · obtain ⟨k, hk, q, rfl⟩ := insideS_iff.1 hin
      obtain ⟨t, t1, _⟩ := h.typed _ _ hs
      rcases mem_removed.1 hk with hk | rfl
      · simp only [Circ.srcTy, (unpack_link h hn hk).2, Op.outs] at t1
        have hq := (List.getElem?_eq_some_iff.1 t1).1
        obtain ⟨s', hs'⟩ := h.linked n hmem q (by rw [hn]; exact hq)
        exact ⟨s', (mem_apply h hn hmem h1).2 (Or.inr (Or.inl ⟨k, hk, q, hq, hs, hs'⟩))⟩
      · simp only [Circ.srcTy, hn, Op.outs] at t1
        have hq : q = 0 := by
          cases q with
          | zero => rfl
          | succ q => simp at t1
        subst hq
        exact ⟨_, (mem_apply h hn hmem h1).2 (Or.inr (Or.inr (Or.inl ⟨hs, hd, rfl⟩)))⟩
    · exact ⟨s, (mem_apply h hn hmem h1).2 (Or.inl ⟨hs, by simpa using hin, hd⟩)⟩
  · obtain ⟨pos, hpos⟩ := h.acyclic
    refine ⟨fun m => if m = fresh c then pos n else pos m, ?_⟩
    have hold : ∀ s m p, (s, .node m p) ∈ c.graph → m ≠ fresh c := by
      rintro s m p hg rfl; exact fresh_not_mem (h.dst_mem _ _ _ hg)
    have holds : ∀ d m p, (.node m p, d) ∈ c.graph → m ≠ fresh c := by
      rintro s m p hg rfl; exact fresh_not_mem (h.src_mem _ _ _ hg)
    intro a p b q hg
    rcases (mem_apply h hn hmem h1).1 hg with ⟨hg, _⟩ | ⟨m, hm, i, hi, hg, hs⟩ | ⟨hg0, hd, e⟩ |
        ⟨hr, i, hi, hs, e⟩
    · simp only [if_neg (holds _ _ _ hg), if_neg (hold _ _ _ hg)]
      exact hpos _ _ _ _ hg
    · simp only [if_neg (holds _ _ _ hs), if_neg (hold _ _ _ hg)]
      have a1 := hpos _ _ _ _ hs
      have a2 := hpos _ _ _ _ (unpack_link h hn hm).1
      have a3 := hpos _ _ _ _ hg
      omega
    · simp at e
      obtain ⟨rfl, rfl⟩ := e
      simp only [if_true, if_neg (hold _ _ _ hg0)]
      exact hpos _ _ _ _ hg0
    · simp at e
      obtain ⟨rfl, rfl⟩ := e
      simp only [if_true, if_neg (holds _ _ _ hs)]
      exact hpos _ _ _ _ hs

/-! ## All rewrites -/

/-- Any number of rewrites, one after the other. -/
inductive Steps (sig : O → List Ty × List Ty) : Circ O → Circ O → Nat → Prop where
  | refl (c : Circ O) : Steps sig c c 0
  | step {c c' c'' : Circ O} {k : Nat} : Step sig c c' → Steps sig c' c'' k →
      Steps sig c c'' (k + 1)

/-- Number of `UnpackTuple`s. -/
def unpackCount (c : Circ O) : Nat := c.nodes.countP (fun m => (c.op m).isUnpack)

theorem step_count (h : WF sig c) (hst : Step sig c c') : unpackCount c' < unpackCount c := by
  obtain ⟨n, ts, hmem, hn, hne, _, h1, rfl⟩ := step_cases h hst
  obtain ⟨m, hm⟩ := List.exists_mem_of_ne_nil _ hne
  obtain ⟨hlk, hop⟩ := unpack_link h hn hm
  have hmn := h.dst_mem _ _ _ hlk
  unfold unpackCount
  have e1 : (apply c (theRewrite c n ts)).nodes.countP
      (fun m => ((apply c (theRewrite c n ts)).op m).isUnpack) =
      (c.nodes.filter (fun m => !(removed c n).contains m)).countP (fun m => (c.op m).isUnpack) := by
    have : (apply c (theRewrite c n ts)).nodes = c.nodes.filter (fun m => !(removed c n).contains m) ++
        if (theRewrite c n ts).pack then [fresh c] else [] := rfl
    rw [this, List.countP_append]
    have z : (if (theRewrite c n ts).pack then [fresh c] else [] : List Nat).countP
        (fun m => ((apply c (theRewrite c n ts)).op m).isUnpack) = 0 := by
      split
      · rename_i hp
        rw [List.countP_singleton, op_apply_new (rest_pos.1 hp)]
        rfl
      · rfl
    rw [z, Nat.add_zero]
    refine List.countP_congr ?_
    intro x hx
    rw [op_apply_old (List.mem_of_mem_filter hx)]
  rw [e1, List.countP_eq_length_filter, List.countP_eq_length_filter, List.filter_filter]
  have hsub : (c.nodes.filter (fun a => (c.op a).isUnpack && !(removed c n).contains a)).Sublist
      ((c.nodes.filter (fun a => (c.op a).isUnpack)).filter (fun a => decide (a ≠ m))) := by
    rw [List.filter_filter]
    refine List.monotone_filter_right _ ?_
    intro a ha
    simp only [Bool.and_eq_true, Bool.not_eq_true', decide_eq_true_eq] at ha ⊢
    refine ⟨?_, ha.1⟩
    rintro rfl
    have : a ∈ removed c n := mem_removed.2 (Or.inl hm)
    rw [List.contains_eq_mem] at ha
    simp [this] at ha
  refine Nat.lt_of_le_of_lt hsub.length_le ?_
  refine List.length_filter_lt_length_iff_exists.2 ⟨m, ?_, by simp⟩
  exact List.mem_filter.2 ⟨hmn, by rw [hop]; rfl⟩

/-- **C76 (all rewrites).** However many rewrites are applied in whatever order, the circuit stays
valid and keeps its meaning, and there are never more rewrites than `UnpackTuple`s. -/
theorem C76_all (h : WF sig c) {k : Nat} (hst : Steps sig c c' k) :
    WF sig c' ∧ k ≤ unpackCount c ∧
      ∀ (sem : O → (Nat → Val) → (Nat → Val) → Prop) (xs ys : List Val),
        xs.length = c.ins.length → (c'.Runs sem xs ys ↔ c.Runs sem xs ys) := by
  induction hst with
  | refl c => exact ⟨h, Nat.zero_le _, fun _ _ _ _ => Iff.rfl⟩
  | @step c c1 c2 k h1 _ ih =>
    obtain ⟨i1, i2, i3⟩ := ih (C76_valid h h1)
    have := step_count h h1
    refine ⟨i1, by omega, fun sem xs ys hx => ?_⟩
    have he : c1.ins = c.ins := by
      obtain ⟨_, _, _, _, rfl⟩ := h1
      rfl
    exact (i3 sem xs ys (by rw [he]; exact hx)).trans (C76_meaning h h1 sem xs ys hx)

/-- **C76 (failures).** Making the rewrite of a `MakeTuple` panics exactly if its tuple is unpacked
and either some unpacked value is not used, or the tuple itself is used more than once by other
operations. -/
theorem C76_panic_iff (h : WF sig c) (hmem : n ∈ c.nodes) :
    makeRewrite sig c n = .panic ↔ ∃ ts, c.op n = .pack ts ∧
      (∃ m ts', (.node n 0, .node m 0) ∈ c.graph ∧ c.op m = .unpack ts') ∧
      ((∃ m ts' p, (.node n 0, .node m 0) ∈ c.graph ∧ c.op m = .unpack ts' ∧ p < ts'.length ∧
        ∀ d, (.node m p, d) ∉ c.graph) ∨
       ∃ d d', d ≠ d' ∧ (.node n 0, d) ∈ c.graph ∧ (.node n 0, d') ∈ c.graph ∧
        (∀ m p ts', (d = .node m p ∨ d' = .node m p) → c.op m ≠ .unpack ts')) := by
  have hrest : (rest c n).length ≤ 1 ↔ ¬ ∃ d d', d ≠ d' ∧ (.node n 0, d) ∈ c.graph ∧
      (.node n 0, d') ∈ c.graph ∧
      (∀ m p ts', (d = .node m p ∨ d' = .node m p) → c.op m ≠ .unpack ts') := by
    have hmem' : ∀ d, d ∈ rest c n ↔ (.node n 0, d) ∈ c.graph ∧
        ∀ m p ts', d = .node m p → c.op m ≠ .unpack ts' := by
      intro d
      rw [List.mem_filter, mem_targets]
      refine and_congr_right (fun _ => ?_)
      cases d with
      | output j => simp [asUnpack]
      | node m p =>
        cases ho : c.op m with
        | unpack t => simp [asUnpack, ho, Op.isUnpack]
        | pack t =>
          simp only [asUnpack, ho, Op.isUnpack]
          refine iff_of_true (by simp) ?_
          intro m' p' ts' e
          cases e
          rw [ho]
          simp
        | other t =>
          simp only [asUnpack, ho, Op.isUnpack]
          refine iff_of_true (by simp) ?_
          intro m' p' ts' e
          cases e
          rw [ho]
          simp
    have hnd : (rest c n).Nodup := (targets_nodup h n).filter _
    constructor
    · rintro hle ⟨d, d', hne, h1, h2, h3⟩
      have m1 := (hmem' d).2 ⟨h1, fun m p ts' e => h3 m p ts' (Or.inl e)⟩
      have m2 := (hmem' d').2 ⟨h2, fun m p ts' e => h3 m p ts' (Or.inr e)⟩
      cases hr : rest c n with
      | nil => rw [hr] at m1; simp at m1
      | cons a l =>
        rw [hr] at hle m1 m2
        have : l = [] := by simpa using hle
        subst this
        simp at m1 m2
        exact hne (m1.trans m2.symm)
    · intro hno
      match hr : rest c n with
      | [] => simp
      | [_] => simp
      | a :: b :: l =>
        exfalso
        rw [hr] at hnd
        have ha := (hmem' a).1 (by rw [hr]; simp)
        have hb := (hmem' b).1 (by rw [hr]; simp)
        refine hno ⟨a, b, ?_, ha.1, hb.1, ?_⟩
        · rintro rfl
          simp at hnd
        · rintro m p ts' (e | e)
          · exact ha.2 m p ts' e
          · exact hb.2 m p ts' e
  cases hn : c.op n with
  | unpack _ =>
    unfold makeRewrite
    rw [hn]
    constructor
    · intro x; cases x
    · rintro ⟨_, x, _⟩; cases x
  | other _ =>
    unfold makeRewrite
    rw [hn]
    constructor
    · intro x; cases x
    · rintro ⟨_, x, _⟩; cases x
  | pack ts =>
    by_cases hne : unpacks c n = []
    · constructor
      · intro hp
        unfold makeRewrite at hp
        rw [hn] at hp
        simp only [if_pos hne] at hp
        cases hp
      · rintro ⟨_, _, ⟨m, ts', hl, ho⟩, _⟩
        have : m ∈ unpacks c n := mem_unpacks.2 ⟨0, hl, ts', ho⟩
        rw [hne] at this
        simp at this
    · rw [makeRewrite_pack h hn hmem hne]
      have hall : AllUsed c n ts.length ↔ ¬ ∃ m ts' p, (.node n 0, .node m 0) ∈ c.graph ∧
          c.op m = .unpack ts' ∧ p < ts'.length ∧ ∀ d, (.node m p, d) ∉ c.graph := by
        constructor
        · rintro ha ⟨m, ts', p, hl, ho, hp, hno⟩
          have hm : m ∈ unpacks c n := mem_unpacks.2 ⟨0, hl, ts', ho⟩
          have := (unpack_link h hn hm).2
          rw [this] at ho
          injection ho with ho
          subst ho
          obtain ⟨d, hd⟩ := ha m hm p hp
          exact hno d hd
        · intro hno m hm p hp
          refine Classical.byContradiction (fun hx => hno ?_)
          obtain ⟨hl, ho⟩ := unpack_link h hn hm
          exact ⟨m, ts, p, hl, ho, hp, fun d hd => hx ⟨d, hd⟩⟩
      have hex : ∃ m ts', (.node n 0, .node m 0) ∈ c.graph ∧ c.op m = .unpack ts' := by
        obtain ⟨m, hm⟩ := List.exists_mem_of_ne_nil _ hne
        obtain ⟨hl, ho⟩ := unpack_link h hn hm
        exact ⟨m, ts, hl, ho⟩
      have hlen := lengths (sig := sig) h hn
      rw [hall, hrest] at hlen
      by_cases hl : ts.length * (unpacks c n).length + (rest c n).length =
          (subOutputs sig c (removed c n)).length
      · rw [if_pos hl]
        have := hlen.1 hl
        constructor
        · intro x; cases x
        · rintro ⟨_, _, _, x | x⟩
          · exact absurd x this.1
          · exact absurd x this.2
      · rw [if_neg hl]
        refine iff_of_true rfl ⟨ts, rfl, hex, ?_⟩
        refine Classical.byContradiction (fun hx => hl (hlen.2 ?_))
        exact ⟨fun y => hx (Or.inl y), fun y => hx (Or.inr y)⟩

/-- **C76 (complete).** If no rewrite is found and making them does not panic, no packed tuple is
unpacked. -/
theorem C76_complete_partial (h : WF sig c) (hno : ∀ n ∈ c.nodes, makeRewrite sig c n = .none) :
    ∀ n m ts ts', c.op n = .pack ts → c.op m = .unpack ts' →
      (.node n 0, .node m 0) ∉ c.graph := by
  intro n m ts ts' hn hm hl
  have hmem := h.src_mem _ _ _ hl
  have hu : m ∈ unpacks c n := mem_unpacks.2 ⟨0, hl, ts', hm⟩
  have hne : unpacks c n ≠ [] := by
    intro e
    rw [e] at hu
    simp at hu
  have := hno n hmem
  rw [makeRewrite_pack h hn hmem hne] at this
  split at this <;> cases this

/-- **C76 (debug assertion).** If a rewrite is made, its outputs have the types that the assertion
of debug builds demands: those of the elements, once for every `UnpackTuple`, then the tuple. -/
theorem C76_debug_assert (h : WF sig c) (hmem : n ∈ c.nodes) {r : Rewrite}
    (hr : makeRewrite sig c n = .some r) : ∃ ts, c.op n = .pack ts ∧
    r.outputs.map (fun b => ((c.op b.1).outs sig)[b.2]?) =
      ((List.replicate (unpacks c n).length ts).flatten ++
        List.replicate (rest c n).length (Ty.tup ts)).map some := by
  obtain ⟨ts, hn, hne, hu, h1, rfl⟩ := makeRewrite_some h hmem hr
  refine ⟨ts, hn, ?_⟩
  simp only [List.map_append]
  refine congrArg₂ _ ?_ ?_
  · have : ∀ l : List Nat, (∀ m ∈ l, m ∈ unpacks c n) →
        (l.flatMap (fun m => (List.range ts.length).map (fun p => (m, p)))).map
          (fun b => ((c.op b.1).outs sig)[b.2]?) =
        ((List.replicate l.length ts).flatten).map some := by
      intro l
      induction l with
      | nil => intro _; rfl
      | cons m l ih =>
        intro hl
        rw [List.flatMap_cons, List.map_append, ih (fun x hx => hl x (List.mem_cons_of_mem _ hx))]
        rw [List.length_cons, List.replicate_succ, List.flatten_cons, List.map_append]
        congr 1
        rw [List.map_map]
        apply List.ext_getElem (by simp)
        intro i hi hi'
        simp only [List.length_map, List.length_range] at hi
        simp [(unpack_link h hn (hl m List.mem_cons_self)).2, Op.outs, hi]
    exact this _ (fun _ hm => hm)
  · match hx : rest c n with
    | [] => simp
    | [_] => simp [hn, Op.outs]
    | _ :: _ :: _ => rw [hx] at h1; simp at h1

/-! ## Examples -/

/-- Two inputs are packed, the tuple is unpacked and is also an output. -/
def ex : Circ Unit where
  graph := [(.input 0, .node 1 0), (.input 1, .node 1 1), (.node 1 0, .node 2 0),
    (.node 2 0, .output 1), (.node 2 1, .output 0), (.node 1 0, .output 2)]
  nodes := [1, 2]
  op := fun n => if n = 1 then .pack [.base 0, .base 1] else .unpack [.base 0, .base 1]
  ins := [.base 0, .base 1]
  outs := [.base 1, .base 0, .tup [.base 0, .base 1]]

/-- Of two unpacked values only one is used. -/
def exUnused : Circ Unit where
  graph := [(.input 0, .node 1 0), (.input 1, .node 1 1), (.node 1 0, .node 2 0),
    (.node 2 0, .output 0)]
  nodes := [1, 2]
  op := fun n => if n = 1 then .pack [.base 0, .base 1] else .unpack [.base 0, .base 1]
  ins := [.base 0, .base 1]
  outs := [.base 0]

/-- The tuple is unpacked and is two outputs. -/
def exTwice : Circ Unit where
  graph := [(.input 0, .node 1 0), (.node 1 0, .node 2 0), (.node 2 0, .output 0),
    (.node 1 0, .output 1), (.node 1 0, .output 2)]
  nodes := [1, 2]
  op := fun n => if n = 1 then .pack [.base 0] else .unpack [.base 0]
  ins := [.base 0]
  outs := [.base 0, .tup [.base 0], .tup [.base 0]]

theorem ex_wf : WF (fun _ : Unit => ([], [])) ex where
  nodup := by decide
  one := by decide
  typed := by
    intro s d h
    simp only [ex, List.mem_cons, Prod.mk.injEq, List.not_mem_nil, or_false] at h
    rcases h with ⟨rfl, rfl⟩ | ⟨rfl, rfl⟩ | ⟨rfl, rfl⟩ | ⟨rfl, rfl⟩ | ⟨rfl, rfl⟩ | ⟨rfl, rfl⟩ <;>
      exact ⟨_, rfl, rfl⟩
  src_mem := by
    intro n p d h
    simp [ex] at h ⊢
    omega
  dst_mem := by
    intro s n p h
    simp [ex] at h ⊢
    omega
  linked := by
    intro n hn p hp
    simp only [ex, List.mem_cons, List.not_mem_nil, or_false] at hn
    rcases hn with rfl | rfl
    · have : p < 2 := hp
      obtain rfl | rfl : p = 0 ∨ p = 1 := by omega
      · exact ⟨.input 0, by simp [ex]⟩
      · exact ⟨.input 1, by simp [ex]⟩
    · have : p < 1 := hp
      obtain rfl : p = 0 := by omega
      exact ⟨.node 1 0, by simp [ex]⟩
  output := by
    intro j hj
    have : j < 3 := hj
    obtain rfl | rfl | rfl : j = 0 ∨ j = 1 ∨ j = 2 := by omega
    · exact ⟨.node 2 1, by simp [ex]⟩
    · exact ⟨.node 2 0, by simp [ex]⟩
    · exact ⟨.node 1 0, by simp [ex]⟩
  acyclic := ⟨id, by
    intro n p m q h
    simp [ex] at h
    simp only [id]
    omega⟩

theorem exUnused_wf : WF (fun _ : Unit => ([], [])) exUnused where
  nodup := by decide
  one := by decide
  typed := by
    intro s d h
    simp only [exUnused, List.mem_cons, Prod.mk.injEq, List.not_mem_nil, or_false] at h
    rcases h with ⟨rfl, rfl⟩ | ⟨rfl, rfl⟩ | ⟨rfl, rfl⟩ | ⟨rfl, rfl⟩ <;> exact ⟨_, rfl, rfl⟩
  src_mem := by
    intro n p d h
    simp [exUnused] at h ⊢
    omega
  dst_mem := by
    intro s n p h
    simp [exUnused] at h ⊢
    omega
  linked := by
    intro n hn p hp
    simp only [exUnused, List.mem_cons, List.not_mem_nil, or_false] at hn
    rcases hn with rfl | rfl
    · have : p < 2 := hp
      obtain rfl | rfl : p = 0 ∨ p = 1 := by omega
      · exact ⟨.input 0, by simp [exUnused]⟩
      · exact ⟨.input 1, by simp [exUnused]⟩
    · have : p < 1 := hp
      obtain rfl : p = 0 := by omega
      exact ⟨.node 1 0, by simp [exUnused]⟩
  output := by
    intro j hj
    have : j < 1 := hj
    obtain rfl : j = 0 := by omega
    exact ⟨.node 2 0, by simp [exUnused]⟩
  acyclic := ⟨id, by
    intro n p m q h
    simp [exUnused] at h
    simp only [id]
    omega⟩

/-- One operation whose output has another type than its input. -/
def exOther : Circ Unit where
  graph := [(.input 0, .node 1 0), (.node 1 0, .output 0)]
  nodes := [1]
  op := fun _ => .other ()
  ins := [.base 0]
  outs := [.base 1]

theorem exOther_wf : WF (fun _ : Unit => ([.base 0], [.base 1])) exOther where
  nodup := by decide
  one := by decide
  typed := by
    intro s d h
    simp only [exOther, List.mem_cons, Prod.mk.injEq, List.not_mem_nil, or_false] at h
    rcases h with ⟨rfl, rfl⟩ | ⟨rfl, rfl⟩ <;> exact ⟨_, rfl, rfl⟩
  src_mem := by
    intro n p d h
    simp [exOther] at h ⊢
    omega
  dst_mem := by
    intro s n p h
    simp [exOther] at h ⊢
    omega
  linked := by
    intro n hn p hp
    simp only [exOther, List.mem_cons, List.not_mem_nil, or_false] at hn
    subst hn
    have : p < 1 := hp
    obtain rfl : p = 0 := by omega
    exact ⟨.input 0, by simp [exOther]⟩
  output := by
    intro j hj
    have : j < 1 := hj
    obtain rfl : j = 0 := by omega
    exact ⟨.node 1 0, by simp [exOther]⟩
  acyclic := ⟨id, by
    intro n p m q h
    simp [exOther] at h⟩

theorem exTwice_wf : WF (fun _ : Unit => ([], [])) exTwice where
  nodup := by decide
  one := by decide
  typed := by
    intro s d h
    simp only [exTwice, List.mem_cons, Prod.mk.injEq, List.not_mem_nil, or_false] at h
    rcases h with ⟨rfl, rfl⟩ | ⟨rfl, rfl⟩ | ⟨rfl, rfl⟩ | ⟨rfl, rfl⟩ | ⟨rfl, rfl⟩ <;>
      exact ⟨_, rfl, rfl⟩
  src_mem := by
    intro n p d h
    simp [exTwice] at h ⊢
    omega
  dst_mem := by
    intro s n p h
    simp [exTwice] at h ⊢
    omega
  linked := by
    intro n hn p hp
    simp only [exTwice, List.mem_cons, List.not_mem_nil, or_false] at hn
    rcases hn with rfl | rfl
    · have : p < 1 := hp
      obtain rfl : p = 0 := by omega
      exact ⟨.input 0, by simp [exTwice]⟩
    · have : p < 1 := hp
      obtain rfl : p = 0 := by omega
      exact ⟨.node 1 0, by simp [exTwice]⟩
  output := by
    intro j hj
    have : j < 3 := hj
    obtain rfl | rfl | rfl : j = 0 ∨ j = 1 ∨ j = 2 := by omega
    · exact ⟨.node 2 0, by simp [exTwice]⟩
    · exact ⟨.node 1 0, by simp [exTwice]⟩
    · exact ⟨.node 1 0, by simp [exTwice]⟩
  acyclic := ⟨id, by
    intro n p m q h
    simp [exTwice] at h
    simp only [id]
    omega⟩

/-- The rewrite of the first example leaves the two values swapped and a new `MakeTuple`. -/
example : ∃ c', Step (fun _ : Unit => ([], [])) ex c' ∧ c'.nodes = [3] ∧
    c'.graph = [(.input 0, .output 1), (.input 1, .output 0), (.node 3 0, .output 2),
      (.input 0, .node 3 0), (.input 1, .node 3 1)] := by
  refine ⟨_, ⟨1, by decide, _, rfl, rfl⟩, by decide +kernel, by decide +kernel⟩

/-- The hypotheses of the theorems on any number of rewrites are met. -/
example : ∃ c', Steps (fun _ : Unit => ([], [])) ex c' 1 ∧
    ∀ n ∈ c'.nodes, makeRewrite (fun _ : Unit => ([], [])) c' n = .none := by
  refine ⟨_, .step ⟨1, by decide, _, rfl, rfl⟩ (.refl _), ?_⟩
  intro n hn
  change n ∈ [3] at hn
  simp only [List.mem_cons, List.not_mem_nil, or_false] at hn
  subst hn
  rfl

/-- **C76 (finding).** An unpacked value that is not used makes the search for rewrites panic. -/
theorem C76_unused_value_panics : WF (fun _ : Unit => ([], [])) exUnused ∧
    makeRewrite (fun _ : Unit => ([], [])) exUnused 1 = .panic :=
  ⟨exUnused_wf, rfl⟩

/-- **C76 (finding).** A tuple that is unpacked and also used twice makes it panic. -/
theorem C76_two_other_uses_panic : WF (fun _ : Unit => ([], [])) exTwice ∧
    makeRewrite (fun _ : Unit => ([], [])) exTwice 1 = .panic :=
  ⟨exTwice_wf, rfl⟩

end Tket.Untuple
