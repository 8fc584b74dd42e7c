import Verif.Lemmas.CopyExprRun

/-!
# Property C59: expressions of copyable values

`CopyableExpr::try_new` (`/repo/tket/src/subcircuit/expression.rs`), on a region with its resource
scope.  `tb` is the tie-breaking of the priority queue and `nbr` the neighbours of the nodes.
-/

namespace Verif.CopyExpr

open Verif.Resource

variable {T : Type} [DecidableEq T]

omit [DecidableEq T] in
/-- The neighbours of nodes are exactly the targets of their value edges (no state order edges). -/
def ValueEdges (r : Region T) (nbr : Nat → List Nat) : Prop :=
  ∀ x y, r.InScope x → r.InScope y → (y ∈ nbr x ↔ ∃ p q, r.Wire x p y q)

omit [DecidableEq T] in
/-- A value of a node that cannot be part of an expression is an expression of its own. -/
theorem C59_trivial (r : Region T) (st : St) (nbr : Nat → List Nat) (isCall : Nat → Bool)
    (tb : Nat → List Nat → Nat) (fuel : Nat) (output : Nat × Nat) (allowed : List (Nat × Nat))
    (excl : List Nat) (hc : ∃ t, r.type? output.1 .out output.2 = some t ∧ r.copyable t = true)
    (ha : ¬ Adm r excl output.1) :
    ∃ e, tryNew r st nbr isCall tb fuel output allowed excl = .ok e ∧ e.output = some output := by
  refine ⟨.wire output.1 output.2, ?_, rfl⟩
  unfold tryNew
  rw [if_pos (outputOk_iff.2 hc), if_neg]
  rw [admissible_iff]
  exact ha

/-- `try_new` never panics, and terminates. -/
theorem C59_total (r : Region T) (order : List Nat) (wf : WF r order) (st : St)
    (hst : scopeNew r order = some st) (nbr : Nat → List Nat) (isCall : Nat → Bool)
    (tb : Nat → List Nat → Nat) (htb : Picks st tb) (output : Nat × Nat)
    (allowed : List (Nat × Nat)) (excl : List Nat)
    (hc : ∃ t, r.type? output.1 .out output.2 = some t ∧ r.copyable t = true) :
    (∀ fuel, tryNew r st nbr isCall tb fuel output allowed excl ≠ .panic) ∧
    ∃ F, ∀ fuel, F ≤ fuel → ∃ e, tryNew r st nbr isCall tb fuel output allowed excl = .ok e := by
  have hp := pos_of wf hst
  by_cases ha : Adm r excl output.1
  · have hg : Good r excl output := ⟨hc, ha⟩
    constructor
    · intro fuel
      unfold tryNew
      rw [if_pos (outputOk_iff.2 hc), if_pos (admissible_iff.2 ha)]
      rcases traverse_inv (isCall := isCall) (allowed := allowed) hp htb hg fuel with
        h1 | ⟨s, h1, hj, hq⟩
      · rw [h1]; simp
      · rw [h1]
        dsimp only
        cases hr : anyReachable r st nbr fuel s.outputs s.inputs with
        | none => simp
        | some b =>
          rw [sortInputs_total hp hj]
          cases b <;> simp
    · refine ⟨(r.nodes.map (links r)).sum + (r.nodes.map fun n => (nbr n).length).sum +
        r.nodes.length + 1, ?_⟩
      intro fuel hf
      obtain ⟨s, h1, hj, hq⟩ := traverse_total (isCall := isCall) (allowed := allowed) hp htb hg fuel
        (by omega)
      obtain ⟨b, hb⟩ := C50_reachability_terminates r order wf st hst nbr s.outputs s.inputs fuel
        (by have := hj.links_le; omega)
      unfold tryNew
      rw [if_pos (outputOk_iff.2 hc), if_pos (admissible_iff.2 ha), h1]
      dsimp only
      rw [hb, sortInputs_total hp hj]
      cases b
      · exact ⟨_, rfl⟩
      · exact ⟨_, rfl⟩
  · constructor
    · intro fuel
      obtain ⟨e, he, _⟩ := C59_trivial r st nbr isCall tb fuel output allowed excl hc ha
      rw [he]; simp
    · refine ⟨0, ?_⟩
      intro fuel _
      obtain ⟨e, he, _⟩ := C59_trivial r st nbr isCall tb fuel output allowed excl hc ha
      exact ⟨e, he⟩

/-- The subgraph consists of exactly the nodes which the documentation describes, in dataflow order,
with exactly these inputs, outputs and function calls. -/
theorem C59_subgraph (r : Region T) (order : List Nat) (wf : WF r order) (st : St)
    (hst : scopeNew r order = some st) (nbr : Nat → List Nat) (isCall : Nat → Bool)
    (tb : Nat → List Nat → Nat) (htb : Picks st tb) (fuel : Nat) (output : Nat × Nat)
    (allowed : List (Nat × Nat)) (excl : List Nat) (hg : Good r excl output)
    (ins outs : List (Nat × Nat)) (calls nodes : List Nat)
    (h : tryNew r st nbr isCall tb fuel output allowed excl = .ok (.composite ins outs calls nodes)) :
    (nodes.Nodup ∧ ∀ n, n ∈ nodes ↔ Cone r allowed excl output.1 n) ∧
    (nodes.Pairwise fun a b => ∀ p q, ¬ r.Wire b p a q) ∧
    (ins.Nodup ∧ ∀ x, x ∈ ins ↔ IsInput r allowed excl output.1 x) ∧
    (outs.Nodup ∧ ∀ x, x ∈ outs ↔ IsOutput r allowed excl output.1 x) ∧
    (calls.Nodup ∧ ∀ n, n ∈ calls ↔ n ∈ nodes ∧ isCall n = true) := by
  have hp := pos_of wf hst
  obtain ⟨s, hj, hq, _, rfl, rfl, rfl, rfl⟩ := tryNew_composite hp htb hg h
  refine ⟨⟨?_, ?_⟩, ?_, ⟨?_, ?_⟩, ⟨hj.onodup, hj.outputs_iff hp hq⟩, ?_, ?_⟩
  · rw [List.nodup_reverse]; exact hj.nodup
  · intro n
    rw [List.mem_reverse]
    exact hj.nodes_iff hp hq n
  · rw [List.pairwise_reverse]
    refine hj.sorted.imp ?_
    intro a b hab p q hw
    have := hp.inc _ _ _ _ hw
    omega
  · exact (sortBy_perm _ _).nodup_iff.2 hj.inodup
  · intro x
    rw [(sortBy_perm _ _).mem_iff]
    exact hj.inputs_iff hp hq x
  · rw [hj.calls]; exact hj.nodup.filter _
  · intro n
    rw [hj.calls, List.mem_filter, List.mem_reverse]

/-- The construction fails exactly when an input depends on an output through the rest of the
circuit.  Partial: without state order edges. -/
theorem C59_not_convex_iff_partial (r : Region T) (order : List Nat) (wf : WF r order) (st : St)
    (hst : scopeNew r order = some st) (nbr : Nat → List Nat) (hn : ValueEdges r nbr)
    (isCall : Nat → Bool) (tb : Nat → List Nat → Nat) (htb : Picks st tb) (fuel : Nat)
    (output : Nat × Nat) (allowed : List (Nat × Nat)) (excl : List Nat) (hg : Good r excl output)
    (e : Expr) (h : tryNew r st nbr isCall tb fuel output allowed excl = .ok e) :
    e = .notConvex ↔ ∃ x y i, IsOutput r allowed excl output.1 x ∧ y ∈ r.linked x.1 x.2 ∧
      IsInput r allowed excl output.1 i ∧ y.1 ∈ r.nodes ∧
      Relation.ReflTransGen (fun a b => ∃ p q, r.Wire a p b q) y.1 i.1 := by
  have hp := pos_of wf hst
  obtain ⟨s, b, hj, hq, hr, rfl⟩ := tryNew_ok hp htb hg h
  have key := C50_reachability_partial r order wf st hst nbr (fun x y hx hy hxy => (hn x y hx hy).1 hxy)
    s.outputs s.inputs fuel b hr
  have hb : (if b = true then Expr.notConvex else
      .composite (sortBy (fun x => (sortKey r allowed excl x).getD (0, 0)) s.inputs) s.outputs s.calls
        s.nodes.reverse) = .notConvex ↔ b = true := by
    cases b <;> simp
  rw [hb, key]
  constructor
  · rintro ⟨x, hx, y, hy, i, hi, hs, hpath⟩
    refine ⟨x, y, i, (hj.outputs_iff hp hq x).1 hx, hy, (hj.inputs_iff hp hq i).1 hi, hs.1, ?_⟩
    refine Relation.ReflTransGen.mono ?_ _ _ hpath
    rintro a b ⟨h1, h2, h3⟩
    exact (hn a b h1 h2).1 h3
  · rintro ⟨x, y, i, hx, hy, hi, hys, hpath⟩
    refine ⟨x, (hj.outputs_iff hp hq x).2 hx, y, hy, i, (hj.inputs_iff hp hq i).2 hi, ?_, ?_⟩
    · have hw : r.Wire x.1 x.2 y.1 y.2 := ⟨hx.2.1.1, hys, hx.2.1.2, hy⟩
      exact (wire_inScope hp hw).2
    · refine Relation.ReflTransGen.mono ?_ _ _ hpath
      rintro a b ⟨p, q, hw⟩
      obtain ⟨h1, h2⟩ := wire_inScope hp hw
      exact ⟨h1, h2, (hn a b h1 h2).2 ⟨p, q, hw⟩⟩

omit [DecidableEq T] in
/-- A path that starts in the expression and leaves it passes an output. -/
theorem leaves {r : Region T} {allowed : List (Nat × Nat)} {excl : List Nat} {o a x : Nat}
    (ha : Cone r allowed excl o a)
    (h : Relation.ReflTransGen (fun a b => ∃ p q, r.Wire a p b q) a x)
    (hx : ¬ Cone r allowed excl o x) :
    ∃ u y, IsOutput r allowed excl o u ∧ y ∈ r.linked u.1 u.2 ∧ y.1 ∈ r.nodes ∧
      Relation.ReflTransGen (fun a b => ∃ p q, r.Wire a p b q) y.1 x := by
  induction h using Relation.ReflTransGen.head_induction_on with
  | refl => exact absurd ha hx
  | @head a c hac hcx ih =>
    by_cases hc : Cone r allowed excl o c
    · exact ih hc
    · obtain ⟨p, q, hw⟩ := hac
      refine ⟨(a, p), (c, q), ⟨ha, ⟨hw.1, hw.2.2.1⟩, (c, q), hw.2.2.2, ?_⟩, hw.2.2.2, hw.2.1, hcx⟩
      rintro ⟨h, _⟩
      exact hc h

omit [DecidableEq T] in
/-- A path that ends in the expression and starts outside passes an input. -/
theorem enters {r : Region T} {order : List Nat} (wf : WF r order) {allowed : List (Nat × Nat)}
    {excl : List Nat} {o b x : Nat} (hb : Cone r allowed excl o b)
    (h : Relation.ReflTransGen (fun a b => ∃ p q, r.Wire a p b q) x b)
    (hx : ¬ Cone r allowed excl o x) :
    ∃ i, IsInput r allowed excl o i ∧
      Relation.ReflTransGen (fun a b => ∃ p q, r.Wire a p b q) x i.1 := by
  induction h with
  | refl => exact absurd hb hx
  | @tail c d hxc hcd ih =>
    by_cases hc : Cone r allowed excl o c
    · exact ih hc
    · obtain ⟨p, q, hw⟩ := hcd
      have hs := wire_source wf hw
      have hv : r.Valid ⟨d, .inc, q⟩ := (wire_valid wf hw).2
      refine ⟨(d, q), ⟨hb, hv, ?_⟩, hxc.tail ⟨p, q, hw⟩⟩
      rintro ⟨h1, n, p', h2, h3⟩
      dsimp only at h2
      rw [hs] at h2
      simp only [Option.some.injEq, Prod.mk.injEq] at h2
      obtain ⟨rfl, rfl⟩ := h2
      exact hc (.step hb hv h1 hs h3)

/-- An expression is convex: no path between two of its nodes leaves it.  Partial: without state order
edges. -/
theorem C59_convex_partial (r : Region T) (order : List Nat) (wf : WF r order) (st : St)
    (hst : scopeNew r order = some st) (nbr : Nat → List Nat) (hn : ValueEdges r nbr)
    (isCall : Nat → Bool) (tb : Nat → List Nat → Nat) (htb : Picks st tb) (fuel : Nat)
    (output : Nat × Nat) (allowed : List (Nat × Nat)) (excl : List Nat) (hg : Good r excl output)
    (ins outs : List (Nat × Nat)) (calls nodes : List Nat)
    (h : tryNew r st nbr isCall tb fuel output allowed excl = .ok (.composite ins outs calls nodes))
    (a x b : Nat) (ha : a ∈ nodes) (hb : b ∈ nodes)
    (hax : Relation.ReflTransGen (fun a b => ∃ p q, r.Wire a p b q) a x)
    (hxb : Relation.ReflTransGen (fun a b => ∃ p q, r.Wire a p b q) x b) : x ∈ nodes := by
  obtain ⟨⟨_, hnodes⟩, _⟩ := C59_subgraph r order wf st hst nbr isCall tb htb fuel output allowed excl
    hg ins outs calls nodes h
  rw [hnodes] at ha hb ⊢
  by_contra hx
  obtain ⟨u, y, hu, hy, hym, hyx⟩ := leaves ha hax hx
  obtain ⟨i, hi, hxi⟩ := enters wf hb hxb hx
  have := (C59_not_convex_iff_partial r order wf st hst nbr hn isCall tb htb fuel output allowed excl hg
    _ h).2 ⟨u, y, i, hu, hy, hi, hym, hyx.trans hxi⟩
  simp at this

/-! ### Values -/

omit [DecidableEq T] in
theorem eval_spec {V : Type} {r : Region T} {order : List Nat} {st : St} (hp : Pos r order st)
    {allowed : List (Nat × Nat)} {excl : List Nat} {o : Nat} (sem : Nat → List V → List V)
    (val : Nat × Nat → V) (hc : Consistent r sem val) (given : Nat × Nat → Option V)
    (hg1 : ∀ x, IsInput r allowed excl o x → ∃ s, r.source x.1 x.2 = some s ∧ given x = some (val s))
    (hg2 : ∀ x, ¬ IsInput r allowed excl o x → given x = none) :
    ∀ (ns : List Nat) (env : Nat × Nat → Option V) (done : List Nat),
    (∀ n ∈ ns, Cone r allowed excl o n ∧ n ∈ r.nodes) →
    (∀ n ∈ ns, ∀ m q p, r.Valid ⟨n, .inc, q⟩ → Cone r allowed excl o m → r.source n q = some (m, p) →
      Adm r excl m → m ∈ done ∨ m ∈ ns) →
    (ns.Pairwise fun a b => ∀ p q, ¬ r.Wire b p a q) →
    (∀ n ∈ done, ∀ p, r.Valid ⟨n, .out, p⟩ → env (n, p) = some (val (n, p))) →
    (∀ n ∈ ns, n ∉ done) → ns.Nodup →
    ∃ env', eval r sem (numIn r) given ns env = some env' ∧
      ∀ n, n ∈ done ∨ n ∈ ns → ∀ p, r.Valid ⟨n, .out, p⟩ → env' (n, p) = some (val (n, p))
  | [], env, done, _, _, _, hd, _, _ => ⟨env, rfl, by simpa using hd⟩
  | n :: ns, env, done, h1, h2, h3, hd, h4, h5 => by
    obtain ⟨hcn, hnn⟩ := h1 n (by simp)
    have harg : ∀ q, q < numIn r n →
        argument r given env n q = (r.source n q).map val ∧
        ((r.source n q).map val).isSome := by
      intro q hq
      have hv : r.Valid ⟨n, .inc, q⟩ := (valid_inc hnn).2 hq
      obtain ⟨m, p, hs⟩ := hp.wf.connected n q hv
      refine ⟨?_, by rw [hs]; rfl⟩
      unfold argument
      by_cases hi : IsInput r allowed excl o (n, q)
      · obtain ⟨s, hs', hgv⟩ := hg1 _ hi
        dsimp only at hs'
        rw [hgv, hs']
        rfl
      · rw [hg2 _ hi, hs]
        have hin : Inner r allowed excl n q := by
          by_contra hin
          exact hi ⟨hcn, hv, hin⟩
        obtain ⟨hna, m', p', hs', ha⟩ := hin
        rw [hs] at hs'
        simp only [Option.some.injEq, Prod.mk.injEq] at hs'
        obtain ⟨rfl, rfl⟩ := hs'
        have hw := hp.wire hv hs ha.mem
        have hcm : Cone r allowed excl o m := .step hcn hv hna hs ha
        have hmd : m ∈ done := by
          rcases h2 n (by simp) m q p hv hcm hs ha with h | h
          · exact h
          · exfalso
            rcases List.mem_cons.1 h with rfl | h
            · exact hp.wf.acyclic _ _ _ hw
            · exact (List.pairwise_cons.1 h3).1 m h p q hw
        exact hd m hmd p ⟨hw.1, hw.2.2.1⟩
    have hargs : ∃ vs, ((List.range (numIn r n)).mapM fun q => (r.source n q).map val) = some vs ∧
        (List.range (numIn r n)).mapM (argument r given env n) = some vs := by
      have : ∀ l : List Nat, (∀ q ∈ l, q < numIn r n) →
          ∃ vs, (l.mapM fun q => (r.source n q).map val) = some vs ∧
          l.mapM (argument r given env n) = some vs := by
        intro l
        induction l with
        | nil => intro _; exact ⟨[], rfl, rfl⟩
        | cons q l ih =>
          intro hl
          obtain ⟨vs, e1, e2⟩ := ih fun q' hq' => hl q' (by simp [hq'])
          obtain ⟨e3, e4⟩ := harg q (hl q (by simp))
          obtain ⟨v, hv⟩ := Option.isSome_iff_exists.1 e4
          refine ⟨v :: vs, ?_, ?_⟩
          · rw [List.mapM_cons, hv, e1]; rfl
          · rw [List.mapM_cons, e3, hv, e2]; rfl
      exact this _ fun q hq => List.mem_range.1 hq
    obtain ⟨vs, e1, e2⟩ := hargs
    rw [eval, e2]
    dsimp only
    obtain ⟨env', e3, e4⟩ := eval_spec hp sem val hc given hg1 hg2 ns
      (fun x => if x.1 = n then (sem n vs)[x.2]? else env x) (n :: done)
      (fun k hk => h1 k (by simp [hk]))
      (fun k hk m q p a b c d => by
        rcases h2 k (by simp [hk]) m q p a b c d with h | h
        · exact .inl (by simp [h])
        · rcases List.mem_cons.1 h with rfl | h
          · exact .inl (by simp)
          · exact .inr h)
      (List.pairwise_cons.1 h3).2
      (fun k hk p hv => by
        dsimp only
        by_cases hkn : k = n
        · subst hkn
          rw [if_pos rfl]
          obtain ⟨_, t, ht⟩ := hv
          cases hsig : r.sig k with
          | none => simp [Region.type?, hsig] at ht
          | some io =>
            obtain ⟨it, ot⟩ := io
            have hni : numIn r k = it.length := by simp [numIn, hsig]
            rw [hni] at e1
            rw [hc k it ot vs hnn hsig e1]
            simp only [Region.type?, hsig] at ht
            obtain ⟨hlt, _⟩ := List.getElem?_eq_some_iff.1 ht
            rw [List.getElem?_map, List.getElem?_range hlt]
            rfl
        · rw [if_neg hkn]
          rcases List.mem_cons.1 hk with h | h
          · exact absurd h hkn
          · exact hd k h p hv)
      (fun k hk => by
        rw [List.mem_cons, not_or]
        refine ⟨?_, h4 k (by simp [hk])⟩
        rintro rfl
        exact (List.nodup_cons.1 h5).1 hk)
      (List.nodup_cons.1 h5).2
    refine ⟨env', e3, ?_⟩
    intro k hk
    apply e4 k
    rcases hk with h | h
    · exact .inl (by simp [h])
    · rcases List.mem_cons.1 h with rfl | h
      · exact .inl (by simp)
      · exact .inr h

/-- Running the nodes of the expression, given only the values at its inputs, yields the value that
the requested port, and every other output, has in the circuit. -/
theorem C59_value {V : Type} (r : Region T) (order : List Nat) (wf : WF r order) (st : St)
    (hst : scopeNew r order = some st) (nbr : Nat → List Nat) (isCall : Nat → Bool)
    (tb : Nat → List Nat → Nat) (htb : Picks st tb) (fuel : Nat) (output : Nat × Nat)
    (allowed : List (Nat × Nat)) (excl : List Nat) (hg : Good r excl output)
    (ins outs : List (Nat × Nat)) (calls nodes : List Nat)
    (h : tryNew r st nbr isCall tb fuel output allowed excl = .ok (.composite ins outs calls nodes))
    (sem : Nat → List V → List V) (val : Nat × Nat → V) (hc : Consistent r sem val) :
    ∃ xs : List V, (ins.mapM fun x => (r.source x.1 x.2).map val) = some xs ∧
    ∃ env, eval r sem (numIn r) (fun x => (ins.zip xs).lookup x) nodes (fun _ => none) = some env ∧
      env output = some (val output) ∧ ∀ x ∈ outs, env x = some (val x) := by
  have hp := pos_of wf hst
  obtain ⟨⟨hnd, hnodes⟩, htopo, ⟨hind, hins⟩, ⟨_, houts⟩, _⟩ := C59_subgraph r order wf st hst nbr isCall
    tb htb fuel output allowed excl hg ins outs calls nodes h
  have hsrc : ∀ x ∈ ins, ∃ s, r.source x.1 x.2 = some s := by
    intro x hx
    obtain ⟨n, p, hs⟩ := wf.connected _ _ ((hins x).1 hx).2.1
    exact ⟨_, hs⟩
  have hxs : ∃ xs : List V, (ins.mapM fun x => (r.source x.1 x.2).map val) = some xs ∧
      (∀ x ∈ ins, ∃ s, r.source x.1 x.2 = some s ∧ (ins.zip xs).lookup x = some (val s)) ∧
      ∀ x, x ∉ ins → (ins.zip xs).lookup x = none := by
    have : ∀ l : List (Nat × Nat), l.Nodup → (∀ x ∈ l, ∃ s, r.source x.1 x.2 = some s) →
        ∃ xs : List V, (l.mapM fun x => (r.source x.1 x.2).map val) = some xs ∧
        (∀ x ∈ l, ∃ s, r.source x.1 x.2 = some s ∧ (l.zip xs).lookup x = some (val s)) ∧
        ∀ x, x ∉ l → (l.zip xs).lookup x = none := by
      intro l
      induction l with
      | nil => intro _ _; exact ⟨[], rfl, by simp, by simp⟩
      | cons y l ih =>
        intro hd hs
        obtain ⟨xs, e1, e2, e3⟩ := ih (List.nodup_cons.1 hd).2 fun x hx => hs x (by simp [hx])
        obtain ⟨s, hsy⟩ := hs y (by simp)
        refine ⟨val s :: xs, ?_, ?_, ?_⟩
        · rw [List.mapM_cons, hsy, e1]; rfl
        · intro x hx
          rcases List.mem_cons.1 hx with rfl | hxl
          · exact ⟨s, hsy, by simp⟩
          · obtain ⟨s', h1, h2⟩ := e2 x hxl
            refine ⟨s', h1, ?_⟩
            have : x ≠ y := by
              rintro rfl
              exact (List.nodup_cons.1 hd).1 hxl
            rw [List.zip_cons_cons, List.lookup_cons, beq_false_of_ne this]
            exact h2
        · intro x hx
          rw [List.mem_cons, not_or] at hx
          rw [List.zip_cons_cons, List.lookup_cons, beq_false_of_ne hx.1]
          exact e3 x hx.2
    exact this ins hind hsrc
  obtain ⟨xs, e1, e2, e3⟩ := hxs
  refine ⟨xs, e1, ?_⟩
  obtain ⟨s, hj, hq, _, _, _, _, hns⟩ := tryNew_composite hp htb hg h
  have hmem : ∀ n, Cone r allowed excl output.1 n → n ∈ r.nodes := by
    intro n hn
    exact (hj.cone n (.inl ((hj.nodes_iff hp hq n).2 hn))).2.1.mem
  obtain ⟨env, e4, e5⟩ := eval_spec (allowed := allowed) (excl := excl) (o := output.1) hp sem val hc
    (fun x => (ins.zip xs).lookup x)
    (fun x hx => e2 x ((hins x).2 hx)) (fun x hx => e3 x fun h => hx ((hins x).1 h)) nodes
    (fun _ => none) [] (fun n hn => ⟨(hnodes n).1 hn, hmem n ((hnodes n).1 hn)⟩)
    (fun n hn m q p _ hm _ _ => .inr ((hnodes m).2 hm)) htopo (by simp) (by simp) hnd
  refine ⟨env, e4, ?_, ?_⟩
  · obtain ⟨t, ht, _⟩ := hg.typ
    exact e5 output.1 (.inr ((hnodes _).2 .root)) output.2 ⟨hg.adm.mem, t, ht⟩
  · intro x hx
    have := (houts x).1 hx
    exact e5 x.1 (.inr ((hnodes _).2 this.1)) x.2 this.2.1

/-! ### The output -/

/-- `output()` returns the requested port exactly when it is used and no smaller port of its node is.
Otherwise it panics or returns another port. -/
theorem C59_output_iff (r : Region T) (order : List Nat) (wf : WF r order) (st : St)
    (hst : scopeNew r order = some st) (nbr : Nat → List Nat) (isCall : Nat → Bool)
    (tb : Nat → List Nat → Nat) (htb : Picks st tb) (fuel : Nat) (output : Nat × Nat)
    (allowed : List (Nat × Nat)) (excl : List Nat) (hg : Good r excl output)
    (ins outs : List (Nat × Nat)) (calls nodes : List Nat)
    (h : tryNew r st nbr isCall tb fuel output allowed excl = .ok (.composite ins outs calls nodes)) :
    (Expr.composite ins outs calls nodes).output = some output ↔
      r.linked output.1 output.2 ≠ [] ∧ ∀ p < output.2, r.linked output.1 p = [] := by
  have hp := pos_of wf hst
  obtain ⟨s, hj, hq, _, rfl, rfl, rfl, rfl⟩ := tryNew_composite hp htb hg h
  have hhead : ∃ ns, s.nodes = output.1 :: ns := by
    rcases hj.head with ⟨_, h⟩ | h
    · simp [hq] at h
    · cases hn : s.nodes with
      | nil => simp [hn] at h
      | cons a as =>
        rw [hn] at h
        simp only [List.head?_cons, Option.some.injEq] at h
        exact ⟨as, by rw [h]⟩
  obtain ⟨ns, hns⟩ := hhead
  have hle : ∀ n, Cone r allowed excl output.1 n → st.posOf n ≤ st.posOf output.1 := by
    intro n hn
    have h1 := (hj.nodes_iff hp hq n).2 hn
    have h2 := hj.sorted
    rw [hns] at h1 h2
    rcases List.mem_cons.1 h1 with rfl | h1
    · exact Nat.le_refl _
    · exact (List.pairwise_cons.1 h2).1 n h1
  have hused : ∀ p, p < numOut r output.1 →
      ((∃ y ∈ r.linked output.1 p, ¬ (Cone r allowed excl output.1 y.1 ∧ r.Valid ⟨y.1, .inc, y.2⟩ ∧
        Inner r allowed excl y.1 y.2)) ↔ r.linked output.1 p ≠ []) := by
    intro p hpn
    constructor
    · rintro ⟨y, hy, _⟩ he
      simp [he] at hy
    · intro hne
      obtain ⟨y, hy⟩ := List.exists_mem_of_ne_nil _ hne
      refine ⟨y, hy, ?_⟩
      rintro ⟨h1, h2, _⟩
      have := hp.inc _ _ _ _ (show r.Wire output.1 p y.1 y.2 from
        ⟨hg.adm.mem, h2.1, ((valid_out hg.adm.mem).2 hpn).2, hy⟩)
      have := hle _ h1
      omega
  have hlt : output.2 < numOut r output.1 := by
    obtain ⟨t, ht, _⟩ := hg.typ
    exact (valid_out hg.adm.mem).1 ⟨hg.adm.mem, t, ht⟩
  have hu : usedOuts r allowed excl output.1 output.1 =
      ((List.range (numOut r output.1)).filter fun p => !(r.linked output.1 p).isEmpty).map
        fun p => (output.1, p) := by
    unfold usedOuts
    congr 1
    apply List.filter_congr
    intro p hpm
    rw [Bool.eq_iff_iff]
    simp only [decide_eq_true_eq]
    rw [hused p (List.mem_range.1 hpm)]
    simp
  unfold Expr.output
  dsimp only
  rw [hj.outputs, hns, List.flatMap_cons, hu]
  cases hf : (List.range (numOut r output.1)).filter fun p => !(r.linked output.1 p).isEmpty with
  | nil =>
    rw [List.filter_eq_nil_iff] at hf
    have he : r.linked output.1 output.2 = [] := by
      have := hf output.2 (List.mem_range.2 hlt)
      simpa using this
    constructor
    · intro hh
      rw [List.map_nil, List.nil_append] at hh
      have hm := List.mem_of_mem_head? hh
      rw [List.mem_flatMap] at hm
      obtain ⟨k, hk, hm⟩ := hm
      obtain ⟨hk', _⟩ := mem_usedOuts.1 hm
      have hnd := hj.nodup
      rw [hns] at hnd
      exact absurd (hk' ▸ hk) (List.nodup_cons.1 hnd).1
    · rintro ⟨hh, _⟩
      exact absurd he hh
  | cons p ps =>
    rw [List.map_cons, List.cons_append, List.head?_cons]
    have hp1 : p ∈ (List.range (numOut r output.1)).filter fun p => !(r.linked output.1 p).isEmpty := by
      rw [hf]; simp
    rw [List.mem_filter] at hp1
    have hsorted : (p :: ps).Pairwise (· < ·) := by
      rw [← hf]
      exact List.pairwise_lt_range.filter _
    constructor
    · intro hh
      have hpo : p = output.2 := congrArg Prod.snd (Option.some.inj hh)
      refine ⟨by rw [← hpo]; simpa using hp1.2, ?_⟩
      intro p' hp'
      by_contra hne
      have : p' ∈ p :: ps := by
        rw [← hf, List.mem_filter]
        refine ⟨List.mem_range.2 ?_, by simpa using hne⟩
        omega
      rcases List.mem_cons.1 this with rfl | h'
      · omega
      · have := (List.pairwise_cons.1 hsorted).1 p' h'
        omega
    · rintro ⟨hh, hmin⟩
      have hmem : output.2 ∈ p :: ps := by
        rw [← hf, List.mem_filter]
        exact ⟨List.mem_range.2 hlt, by simpa using hh⟩
      rcases List.mem_cons.1 hmem with h' | h'
      · rw [← h']
      · have := hmin p ((List.pairwise_cons.1 hsorted).1 _ h')
        rw [this] at hp1
        simp at hp1

/-! ### The order of the inputs -/

/-- The inputs are in the documented order, if the ones that are not boundary ports all come from
excluded nodes, or none of them does. -/
theorem C59_input_order_partial (r : Region T) (order : List Nat) (wf : WF r order) (st : St)
    (hst : scopeNew r order = some st) (nbr : Nat → List Nat) (isCall : Nat → Bool)
    (tb : Nat → List Nat → Nat) (htb : Picks st tb) (fuel : Nat) (output : Nat × Nat)
    (allowed : List (Nat × Nat)) (excl : List Nat) (hg : Good r excl output)
    (ins outs : List (Nat × Nat)) (calls nodes : List Nat)
    (h : tryNew r st nbr isCall tb fuel output allowed excl = .ok (.composite ins outs calls nodes))
    (hx : (∀ x ∈ ins, x ∈ allowed ∨ ∃ s, r.source x.1 x.2 = some s ∧ s.1 ∈ excl) ∨
      (∀ x ∈ ins, x ∈ allowed ∨ ∀ s, r.source x.1 x.2 = some s → s.1 ∉ excl)) :
    ins.Pairwise fun a b => keyLe (docKey r allowed excl a) (docKey r allowed excl b) = true := by
  have hp := pos_of wf hst
  obtain ⟨_, _, ⟨_, hins⟩, _⟩ := C59_subgraph r order wf st hst nbr isCall
    tb htb fuel output allowed excl hg ins outs calls nodes h
  obtain ⟨s, hj, hq, _, hi, _, _, _⟩ := tryNew_composite hp htb hg h
  have hs := sortBy_sorted (fun x => (sortKey r allowed excl x).getD (0, 0)) s.inputs
  rw [← hi] at hs
  refine hs.imp_of_mem ?_
  intro a b ha hb hab
  have key : ∀ x ∈ ins, ((∃ i, x ∈ allowed ∧ docKey r allowed excl x = (0, i) ∧
        (sortKey r allowed excl x).getD (0, 0) = (0, i)) ∨
      (∃ i, (∃ s, r.source x.1 x.2 = some s ∧ s.1 ∈ excl) ∧ x ∉ allowed ∧
        docKey r allowed excl x = (1, i) ∧ (sortKey r allowed excl x).getD (0, 0) = (1, i + 1)) ∨
      ((∀ s, r.source x.1 x.2 = some s → s.1 ∉ excl) ∧ x ∉ allowed ∧ docKey r allowed excl x = (2, 0) ∧
        (sortKey r allowed excl x).getD (0, 0) = (1, 0))) := by
    intro x hx
    obtain ⟨n, p, hsrc⟩ := wf.connected _ _ ((hins x).1 hx).2.1
    unfold docKey sortKey
    rw [hsrc]
    cases ha : allowed.idxOf? x with
    | some i =>
      left
      refine ⟨i, ?_, rfl, rfl⟩
      by_contra hn
      rw [List.idxOf?_eq_none_iff.2 hn] at ha
      exact absurd ha (by simp)
    | none =>
      right
      have hna := List.idxOf?_eq_none_iff.1 ha
      dsimp only [Option.bind_some]
      cases he : excl.idxOf? n with
      | some i =>
        left
        refine ⟨i, ⟨_, rfl, ?_⟩, hna, rfl, rfl⟩
        by_contra hn
        rw [List.idxOf?_eq_none_iff.2 hn] at he
        exact absurd he (by simp)
      | none =>
        right
        refine ⟨?_, hna, rfl, rfl⟩
        rintro s hs
        simp only [Option.some.injEq] at hs
        subst hs
        exact List.idxOf?_eq_none_iff.1 he
  rw [keyLe_iff] at hab ⊢
  rcases key a ha with ⟨i, a1, da, ka⟩ | ⟨i, ⟨sa, a1, a1'⟩, a2, da, ka⟩ | ⟨a1, a2, da, ka⟩ <;>
  rcases key b hb with ⟨j, b1, db, kb⟩ | ⟨j, ⟨sb, b1, b1'⟩, b2, db, kb⟩ | ⟨b1, b2, db, kb⟩ <;>
  rw [ka, kb] at hab <;> rw [da, db] <;> dsimp only at hab ⊢ <;> try omega
  exfalso
  rcases hx with hx | hx
  · rcases hx a ha with h | ⟨s, h, h'⟩
    · exact a2 h
    · exact a1 s h h'
  · rcases hx b hb with h | h
    · exact b2 h
    · exact h sb b1 b1'

/-- The inputs that are neither boundary ports nor fed by excluded nodes come in the order of the
traversal: later nodes first, and the ports of a node in order. -/
theorem C59_other_inputs_order (r : Region T) (order : List Nat) (wf : WF r order) (st : St)
    (hst : scopeNew r order = some st) (nbr : Nat → List Nat) (isCall : Nat → Bool)
    (tb : Nat → List Nat → Nat) (htb : Picks st tb) (fuel : Nat) (output : Nat × Nat)
    (allowed : List (Nat × Nat)) (excl : List Nat) (hg : Good r excl output)
    (ins outs : List (Nat × Nat)) (calls nodes : List Nat)
    (h : tryNew r st nbr isCall tb fuel output allowed excl = .ok (.composite ins outs calls nodes)) :
    (ins.filter fun x => docKey r allowed excl x = (2, 0)).Pairwise fun a b =>
      (∀ p q, ¬ r.Wire a.1 p b.1 q) ∧ (a.1 = b.1 → a.2 < b.2) := by
  have hp := pos_of wf hst
  obtain ⟨s, hj, hq, _, hi, _, _, _⟩ := tryNew_composite hp htb hg h
  have hkey : ∀ x ∈ ins, (decide (docKey r allowed excl x = (2, 0)) =
      decide ((sortKey r allowed excl x).getD (0, 0) = (1, 0))) := by
    intro x hx
    rw [hi, (sortBy_perm _ _).mem_iff, hj.inputs] at hx
    obtain ⟨n, p, hsrc⟩ := wf.connected _ _ hx.2.1
    rw [decide_eq_decide]
    unfold docKey sortKey
    rw [hsrc]
    cases allowed.idxOf? x with
    | some i => simp
    | none =>
      dsimp only [Option.bind_some]
      cases excl.idxOf? n with
      | some i => simp
      | none => simp
  rw [List.filter_congr hkey, hi, sortBy_filter]
  refine (hj.iorder.filter _).imp ?_
  rintro a b ⟨h1, h2⟩
  refine ⟨?_, h2⟩
  intro p q hw
  have := hp.inc _ _ _ _ hw
  omega

/-! ### Examples and counterexamples -/

/-- Node 1 measures a qubit; node 2 takes the result and returns two values; node 3 combines them
with a value of node 4 (a measurement as well); node 5 rotates a qubit. `true` is a copyable type. -/
def exRegion : Region Bool :=
  ofWires id
    [(1, [false], [false, true]), (4, [false], [false, true]), (2, [true], [true, true]),
      (3, [true, true], [true]), (5, [false, true], [false])]
    [((0, 0), (1, 0)), ((0, 1), (4, 0)), ((1, 1), (2, 0)), ((2, 0), (3, 0)), ((4, 1), (3, 1)),
      ((1, 0), (5, 0)), ((3, 0), (5, 1)), ((5, 0), (9, 0)), ((4, 0), (9, 1)), ((2, 1), (9, 2))]
    [(1, 0), (4, 0)]

theorem exRegion_wf : WF exRegion [1, 4, 2, 3, 5] ∧ exRegion.LinearUse :=
  wf_ofWires ⟨by decide, by decide, by decide, by decide, by decide, by decide, by decide,
    by decide, by decide⟩

def exNbr : Nat → List Nat
  | 1 => [5, 2]
  | 2 => [3, 9]
  | 3 => [5]
  | 4 => [9, 3]
  | 5 => [9]
  | _ => []

/-- A tie-breaking rule for the examples: the first node of greatest position. -/
def firstMax (st : St) (_ : Nat) (q : List Nat) : Nat :=
  q.foldr (fun n m => if (st.getPos m).getD 0 ≤ (st.getPos n).getD 0 then n else m) (q.getLastD 0)

theorem firstMax_picks (st : St) : Picks st (firstMax st) := by
  intro i q hq
  unfold firstMax
  have hlast : q.getLastD 0 ∈ q := by
    cases q with
    | nil => exact absurd rfl hq
    | cons a l =>
      rw [show (a :: l).getLastD 0 = (a :: l).getLast (by simp) from rfl]
      exact List.getLast_mem _
  have : ∀ (l : List Nat) (d : Nat),
      (l.foldr (fun n m => if (st.getPos m).getD 0 ≤ (st.getPos n).getD 0 then n else m) d ∈ l ∨
        l.foldr (fun n m => if (st.getPos m).getD 0 ≤ (st.getPos n).getD 0 then n else m) d = d) ∧
      ∀ m ∈ l, (st.getPos m).getD 0 ≤ (st.getPos
        (l.foldr (fun n m => if (st.getPos m).getD 0 ≤ (st.getPos n).getD 0 then n else m) d)).getD 0 := by
    intro l d
    induction l with
    | nil => simp
    | cons a l ih =>
      obtain ⟨h1, h2⟩ := ih
      rw [List.foldr_cons]
      split
      · rename_i h
        refine ⟨.inl (by simp), ?_⟩
        intro m hm
        rcases List.mem_cons.1 hm with rfl | hm
        · exact Nat.le_refl _
        · exact Nat.le_trans (h2 m hm) h
      · rename_i h
        refine ⟨?_, ?_⟩
        · rcases h1 with h1 | h1
          · exact .inl (by simp [h1])
          · exact .inr h1
        · intro m hm
          rcases List.mem_cons.1 hm with rfl | hm
          · omega
          · exact h2 m hm
  obtain ⟨h1, h2⟩ := this q (q.getLastD 0)
  refine ⟨?_, h2⟩
  rcases h1 with h1 | h1
  · exact h1
  · rw [h1]; exact hlast

/-- `try_new` on a region, with the scope computed. -/
def run (r : Region Bool) (order : List Nat) (nbr : Nat → List Nat) (output : Nat × Nat)
    (allowed : List (Nat × Nat)) (excl : List Nat) : Option (Out Expr) :=
  (scopeNew r order).map fun st =>
    tryNew r st nbr (fun _ => false) (firstMax st) 100 output allowed excl

/-- The angle of the rotation: nodes 2 and 3, with two inputs. -/
example : run exRegion [1, 4, 2, 3, 5] exNbr (3, 0) [] [] =
    some (.ok (.composite [(3, 1), (2, 0)] [(3, 0), (2, 1)] [] [2, 3])) := by decide +kernel

example : Good exRegion [] (3, 0) :=
  ⟨⟨true, by decide, by decide⟩, admissible_iff.1 (by decide)⟩

example : ¬ Adm exRegion [] 1 := by rw [← admissible_iff]; decide

example : ValueEdges exRegion exNbr := by
  intro x y hx hy
  have hm : ∀ x, x ∈ exRegion.nodes → x = 1 ∨ x = 4 ∨ x = 2 ∨ x = 3 ∨ x = 5 := by
    intro x hx
    simpa [exRegion, ofWires] using hx
  have hw : ∀ x p y q, exRegion.Wire x p y q → y ∈ exNbr x := by
    rintro x p y q ⟨_, _, ⟨t, ht⟩, h4⟩
    simp only [exRegion, ofWires, List.mem_map, List.mem_filter] at h4
    obtain ⟨w, ⟨h5, h6⟩, h7⟩ := h4
    simp only [decide_eq_true_eq] at h6
    obtain ⟨⟨a, b⟩, c, d⟩ := w
    simp only [Prod.mk.injEq] at h6 h7
    obtain ⟨rfl, rfl⟩ := h6
    obtain ⟨rfl, rfl⟩ := h7
    simp only [List.mem_cons, Prod.mk.injEq, List.not_mem_nil, or_false] at h5
    rcases h5 with h | h | h | h | h | h | h | h | h | h <;> obtain ⟨⟨rfl, rfl⟩, rfl, rfl⟩ := h <;>
      first | decide | exact absurd ht (by decide +revert)
  constructor
  · intro h
    rcases hm x hx.1 with rfl | rfl | rfl | rfl | rfl
    · simp only [exNbr, List.mem_cons, List.not_mem_nil, or_false] at h
      rcases h with rfl | rfl
      · exact ⟨0, 0, by decide, by decide, ⟨false, by decide⟩, by decide⟩
      · exact ⟨1, 0, by decide, by decide, ⟨true, by decide⟩, by decide⟩
    · simp only [exNbr, List.mem_cons, List.not_mem_nil, or_false] at h
      rcases h with rfl | rfl
      · exact absurd hy.1 (by decide)
      · exact ⟨1, 1, by decide, by decide, ⟨true, by decide⟩, by decide⟩
    · simp only [exNbr, List.mem_cons, List.not_mem_nil, or_false] at h
      rcases h with rfl | rfl
      · exact ⟨0, 0, by decide, by decide, ⟨true, by decide⟩, by decide⟩
      · exact absurd hy.1 (by decide)
    · simp only [exNbr, List.mem_cons, List.not_mem_nil, or_false] at h
      subst h
      exact ⟨0, 1, by decide, by decide, ⟨true, by decide⟩, by decide⟩
    · simp only [exNbr, List.mem_cons, List.not_mem_nil, or_false] at h
      subst h
      exact absurd hy.1 (by decide)
  · rintro ⟨p, q, h⟩
    exact hw x p y q h

/-- An input of the expression that depends on one of its outputs: an error. -/
example : run (ofWires id [(1, [true], [true]), (2, [true], [true]), (3, [true, true], [true])]
      [((0, 0), (1, 0)), ((1, 0), (2, 0)), ((1, 0), (3, 0)), ((2, 0), (3, 1)), ((3, 0), (9, 0))]
      [(1, 0)])
    [1, 2, 3] (fun n => match n with | 1 => [2, 3] | 2 => [3] | 3 => [9] | _ => []) (3, 0) [] [2] =
    some (.ok .notConvex) := by decide +kernel

/-- **The output is not the requested one.** Asked for the second value of node 2, which computes two
values that are both used, `output` returns the first. -/
theorem C59_wrong_output :
    ∃ e, run exRegion [1, 4, 2, 3, 5] exNbr (2, 1) [] [] = some (.ok e) ∧ e.output = some (2, 0) :=
  ⟨.composite [(2, 0)] [(2, 0), (2, 1)] [] [2], by decide +kernel, rfl⟩

/-- Node 2 of `exRegion` with only its input used. -/
def unusedRegion : Region Bool :=
  ofWires id [(2, [true], [true, true])] [((0, 0), (2, 0))] [(2, 0)]

/-- **`output` panics** for a value that is not used. -/
theorem C59_unused_output_panics :
    WF unusedRegion [2] ∧ Good unusedRegion [] (2, 0) ∧
    ∃ e, run unusedRegion [2] (fun _ => []) (2, 0) [] [] = some (.ok e) ∧ e.output = none :=
  ⟨(wf_ofWires ⟨by decide, by decide, by decide, by decide, by decide, by decide, by decide,
    by decide, by decide⟩).1, ⟨⟨true, by decide, by decide⟩, admissible_iff.1 (by decide)⟩,
    .composite [(2, 0)] [] [] [2], by decide +kernel, rfl⟩

/-- Two inputs: one from the excluded node 1, one from a qubit operation. -/
def orderRegion' : Region Bool :=
  ofWires id [(1, [true], [true]), (4, [false], [false, true]), (3, [true, true], [true])]
    [((0, 0), (1, 0)), ((0, 1), (4, 0)), ((1, 0), (3, 0)), ((4, 1), (3, 1)), ((3, 0), (9, 0)),
      ((4, 0), (9, 1))]
    [(1, 0), (4, 0)]

/-- **The inputs are not in the documented order**: the port fed by an excluded node should come
before the others, but comes after them. -/
theorem C59_input_order_wrong :
    WF orderRegion' [1, 4, 3] ∧ Good orderRegion' [1] (3, 0) ∧
    ∃ e outs calls nodes, run orderRegion' [1, 4, 3] (fun n => if n = 3 then [9] else [3]) (3, 0) [] [1]
      = some (.ok e) ∧ e = .composite [(3, 1), (3, 0)] outs calls nodes ∧
      keyLe (docKey orderRegion' [] [1] (3, 1)) (docKey orderRegion' [] [1] (3, 0)) = false :=
  ⟨(wf_ofWires ⟨by decide, by decide, by decide, by decide, by decide, by decide, by decide,
    by decide, by decide⟩).1, ⟨⟨true, by decide, by decide⟩, admissible_iff.1 (by decide)⟩,
    .composite [(3, 1), (3, 0)] [(3, 0)] [] [3], _, _, _, by decide +kernel, rfl, by decide⟩

end Verif.CopyExpr
