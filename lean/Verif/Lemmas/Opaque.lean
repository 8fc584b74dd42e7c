import Verif.Model.OpaqueSpec

/-
Lemmas on opaque subgraphs.
-/
namespace Verif.Opaque

variable {τ : Type}

/-! ### Links into a port -/

theorem into_connect (g : Graph) (w : Wire) (t t' : Node × Nat) :
    (g.connect w t').into t = g.into t ++ if t' = t then [w] else [] := by
  by_cases h : t' = t <;> simp [Graph.connect, Graph.into, List.filter_append, h]

theorem into_disconnectOut (g : Graph) (w : Wire) (t : Node × Nat) :
    (g.disconnectOut w).into t = (g.into t).filter fun x => x ≠ w := by
  simp only [Graph.disconnectOut, Graph.into, List.filter_filter, List.filter_map]
  congr 1
  apply List.filter_congr
  intro l _
  simp [Bool.and_comm]

theorem into_disconnectIn (g : Graph) (t t' : Node × Nat) :
    (g.disconnectIn t').into t = if t = t' then [] else g.into t := by
  simp only [Graph.disconnectIn, Graph.into, List.filter_filter]
  by_cases h : t = t'
  · subst h
    rw [if_pos rfl, List.map_eq_nil_iff, List.filter_eq_nil_iff]
    intro l _
    simp
  · rw [if_neg h]
    congr 1
    apply List.filter_congr
    intro l _
    by_cases h1 : l.dst = t
    · simp [h1, h]
    · simp [h1]

theorem mem_into {g : Graph} {t : Node × Nat} {w : Wire} : w ∈ g.into t ↔ ⟨w, t⟩ ∈ g.links := by
  simp only [Graph.into, List.mem_map, List.mem_filter, decide_eq_true_eq]
  constructor
  · rintro ⟨⟨s, d⟩, ⟨h1, h2⟩, h3⟩
    simp only at h2 h3
    rw [← h2, ← h3]; exact h1
  · intro h
    exact ⟨_, ⟨h, rfl⟩, rfl⟩

theorem mem_outOf {g : Graph} {t : Node × Nat} {w : Wire} : t ∈ g.outOf w ↔ ⟨w, t⟩ ∈ g.links := by
  simp only [Graph.outOf, List.mem_map, List.mem_filter, decide_eq_true_eq]
  constructor
  · rintro ⟨⟨s, d⟩, ⟨h1, h2⟩, h3⟩
    simp only at h2 h3
    rw [← h2, ← h3]; exact h1
  · intro h
    exact ⟨_, ⟨h, rfl⟩, rfl⟩

@[simp] theorem reparent_links (g : Graph) (p : Node) (ns : List Node) : (reparent g p ns).links = g.links := by
  induction ns generalizing g with
  | nil => rfl
  | cons n ns ih => rw [reparent, ih]; rfl

theorem reparent_parent (g : Graph) (p : Node) (ns : List Node) (n : Node) :
    (reparent g p ns).parent n = if n ∈ ns then some p else g.parent n := by
  induction ns generalizing g with
  | nil => simp [reparent]
  | cons m ns ih =>
    rw [reparent, ih]
    by_cases h : n ∈ ns
    · rw [if_pos h, if_pos (by simp [h])]
    · rw [if_neg h]
      simp only [Graph.setParent, List.mem_cons, h, or_false]

theorem into_links (g g' : Graph) (h : g.links = g'.links) (t : Node × Nat) : g.into t = g'.into t := by
  simp only [Graph.into, h]

/-! ### Boundaries -/

theorem localNb_iff {g : Graph} {nodes : List Node} {region : Node} {nbs : List Node} :
    localNb g nodes region nbs = true ↔ ∃ n ∈ nbs, n ∉ nodes ∧ g.parent n = some region := by
  simp [localNb]

theorem mem_nodeIns {o : Ops τ} {g : Graph} {nodes : List Node} {region n : Node} {x : τ × (Node × Nat)} :
    x ∈ nodeIns o g nodes region n ↔ ∃ ts, o.ins n = some ts ∧ x.2.1 = n ∧ ts[x.2.2]? = some x.1 ∧
      ∃ w ∈ g.into x.2, w.1 ∉ nodes ∧ g.parent w.1 = some region := by
  obtain ⟨t, m, p⟩ := x
  rw [nodeIns]
  cases h : o.ins n with
  | none => simp
  | some ts =>
    simp only [List.mem_map, List.mem_filter, Option.some.injEq, exists_eq_left']
    constructor
    · rintro ⟨⟨t', p'⟩, ⟨h1, h2⟩, h3⟩
      simp only [Prod.mk.injEq] at h3
      obtain ⟨rfl, rfl, rfl⟩ := h3
      rw [localNb_iff] at h2
      obtain ⟨k, hk, h4⟩ := h2
      obtain ⟨w, hw, rfl⟩ := List.mem_map.mp hk
      exact ⟨rfl, by simpa [List.mem_zipIdx_iff_getElem?] using h1, w, hw, h4⟩
    · rintro ⟨rfl, h1, w, hw, h4⟩
      refine ⟨(t, p), ⟨by simpa [List.mem_zipIdx_iff_getElem?] using h1, ?_⟩, rfl⟩
      rw [localNb_iff]
      exact ⟨w.1, List.mem_map.mpr ⟨w, hw, rfl⟩, h4⟩

theorem mem_nodeOuts {o : Ops τ} {g : Graph} {nodes : List Node} {region n : Node} {x : τ × Wire} :
    x ∈ nodeOuts o g nodes region n ↔ (o.ins n).isSome ∧ x.2.1 = n ∧ (o.outs n)[x.2.2]? = some x.1 ∧
      ∃ t ∈ g.outOf x.2, t.1 ∉ nodes ∧ g.parent t.1 = some region := by
  obtain ⟨t, m, p⟩ := x
  rw [nodeOuts]
  cases h : o.ins n with
  | none => simp
  | some ts =>
    simp only [List.mem_map, List.mem_filter, Option.isSome_some, true_and]
    constructor
    · rintro ⟨⟨t', p'⟩, ⟨h1, h2⟩, h3⟩
      simp only [Prod.mk.injEq] at h3
      obtain ⟨rfl, rfl, rfl⟩ := h3
      rw [localNb_iff] at h2
      obtain ⟨k, hk, h4⟩ := h2
      obtain ⟨w, hw, rfl⟩ := List.mem_map.mp hk
      exact ⟨rfl, by simpa [List.mem_zipIdx_iff_getElem?] using h1, w, hw, h4⟩
    · rintro ⟨rfl, h1, w, hw, h4⟩
      refine ⟨(t, p), ⟨by simpa [List.mem_zipIdx_iff_getElem?] using h1, ?_⟩, rfl⟩
      rw [localNb_iff]
      exact ⟨w.1, List.mem_map.mpr ⟨w, hw, rfl⟩, h4⟩

theorem nodup_zipIdx_map {l : List τ} {n k : Nat} {p : τ × Nat → Bool} :
    (((l.zipIdx k).filter p).map fun x => (n, x.2)).Nodup := by
  have h : ((l.zipIdx k).map fun x => (n, x.2)).Nodup := by
    have h1 : (l.zipIdx k).map (fun x => (n, x.2)) = ((l.zipIdx k).map Prod.snd).map fun i => (n, i) := by
      rw [List.map_map]; rfl
    rw [h1, List.zipIdx_map_snd]
    refine List.Pairwise.map _ ?_ List.nodup_range'
    intro a b hab e
    simp at e
    exact hab e
  exact h.sublist (List.filter_sublist.map _)

theorem nodup_flatMap {β : Type} {ns : List Node} {f : Node → List β} {key : β → Node}
    (hn : ns.Nodup) (hf : ∀ n, (f n).Nodup) (hk : ∀ n, ∀ x ∈ f n, key x = n) : (ns.flatMap f).Nodup := by
  induction ns with
  | nil => simp
  | cons n ns ih =>
    rw [List.flatMap_cons]
    obtain ⟨h1, h2⟩ := List.nodup_cons.mp hn
    refine List.nodup_append.mpr ⟨hf n, ih h2, ?_⟩
    intro a ha b hb e
    subst e
    obtain ⟨m, hm, hb⟩ := List.mem_flatMap.mp hb
    rw [← hk n a ha, hk m a hb] at h1
    exact h1 hm

theorem made_ports_nodup {o : Ops τ} {g : Graph} {entry : Node} {nodes : List Node} (h : nodes.Nodup) :
    ((tryFromNodes o g entry nodes).ins.map Prod.snd).Nodup ∧
      ((tryFromNodes o g entry nodes).outs.map Prod.snd).Nodup := by
  simp only [tryFromNodes, List.map_flatMap]
  constructor
  · refine nodup_flatMap (key := Prod.fst) h (fun n => ?_) (fun n x hx => ?_)
    · rw [nodeIns]
      cases o.ins n with
      | none => simp
      | some ts =>
        simp only [List.map_map]
        exact nodup_zipIdx_map
    · obtain ⟨y, hy, rfl⟩ := List.mem_map.mp hx
      obtain ⟨_, _, h2, _⟩ := mem_nodeIns.mp hy
      exact h2
  · refine nodup_flatMap (key := Prod.fst) h (fun n => ?_) (fun n x hx => ?_)
    · rw [nodeOuts]
      cases o.ins n with
      | none => simp
      | some ts =>
        simp only [List.map_map]
        exact nodup_zipIdx_map
    · obtain ⟨y, hy, rfl⟩ := List.mem_map.mp hx
      obtain ⟨_, h2, _⟩ := mem_nodeOuts.mp hy
      exact h2

/-! ### One insertion -/

/-- The links that the loop over inputs adds. -/
def added (oldIn newIn : Node) (L : List Wire) (f : Option Wire) : List Wire :=
  match f with
  | some w => [w]
  | none =>
    match L with
    | [w] => if w.1 ≠ oldIn then [] else [(newIn, w.2)]
    | _ => []

theorem rewireInput_into (oldIn newIn : Node) (g : Graph) (t t' : Node × Nat) (f : Option Wire) :
    (rewireInput oldIn newIn g t' f).into t =
      g.into t ++ if t' = t then added oldIn newIn (g.into t) f else [] := by
  rw [rewireInput.eq_def]
  cases f with
  | some w => rw [into_connect]; rfl
  | none =>
    by_cases h : t' = t
    · subst h
      simp only [added, if_pos]
      generalize hL : g.into t' = L
      match L, hL with
      | [], hL => simp [hL]
      | [w], hL =>
        by_cases h1 : w.1 ≠ oldIn
        · simp [h1, hL]
        · simp only [h1, if_false]
          rw [into_connect, hL]; simp
      | _ :: _ :: _, hL => simp [hL]
    · simp only [if_neg h, List.append_nil]
      split
      · split
        · rfl
        · rw [into_connect, if_neg h, List.append_nil]
      · rfl

@[simp] theorem rewireInput_parent (oldIn newIn : Node) (g : Graph) (t : Node × Nat) (f : Option Wire) :
    (rewireInput oldIn newIn g t f).parent = g.parent := by
  rw [rewireInput.eq_def]
  split
  · rfl
  · split
    · split <;> rfl
    · rfl

theorem rewireInputs_spec {oldIn newIn : Node} {g g' : Graph} {ins : List (τ × (Node × Nat))}
    {fs : List (Option Wire)} (h : rewireInputs oldIn newIn g ins fs = some g')
    (hn : (ins.map Prod.snd).Nodup) :
    g'.parent = g.parent ∧ ins.length = fs.length ∧
      (∀ t, t ∉ ins.map Prod.snd → g'.into t = g.into t) ∧
      ∀ x ∈ ins.zip fs, g'.into x.1.2 = g.into x.1.2 ++ added oldIn newIn (g.into x.1.2) x.2 := by
  induction ins generalizing g fs with
  | nil =>
    rw [rewireInputs] at h
    cases fs with
    | nil => simp at h; subst h; exact ⟨rfl, rfl, fun _ _ => rfl, by simp⟩
    | cons f fs => simp at h
  | cons x xs ih =>
    cases fs with
    | nil => simp [rewireInputs] at h
    | cons f fs =>
      rw [rewireInputs] at h
      simp only [List.head?_cons, Option.bind_some, List.tail_cons] at h
      obtain ⟨n1, n2⟩ := List.nodup_cons.mp hn
      obtain ⟨h0, h1, h2, h3⟩ := ih h n2
      refine ⟨by rw [h0]; simp, by simp [h1], ?_, ?_⟩
      · intro t ht
        simp only [List.map_cons, List.mem_cons, not_or] at ht
        rw [h2 t ht.2, rewireInput_into, if_neg (Ne.symm ht.1), List.append_nil]
      · intro y hy
        simp only [List.zip_cons_cons, List.mem_cons] at hy
        rcases hy with rfl | hy
        · rw [h2 _ n1, rewireInput_into, if_pos rfl]
        · have hne : x.2 ≠ y.1.2 := by
            intro e
            rw [e] at n1
            exact n1 (List.mem_map_of_mem (List.of_mem_zip hy).1)
          rw [h3 y hy, rewireInput_into, if_neg hne, List.append_nil]

theorem rewireUses_into (oldOut newOut : Node) (w : Wire) (g : Graph) (ts : List (Node × Nat)) (t : Node × Nat)
    (h1 : t.1 ≠ oldOut) (h2 : t.1 ≠ newOut) : (rewireUses oldOut newOut w g ts).into t = g.into t := by
  induction ts generalizing g with
  | nil => rfl
  | cons x xs ih =>
    rw [rewireUses]
    split
    · rw [ih, into_connect, into_disconnectIn, if_neg (fun e => h1 (by rw [e])),
        if_neg (fun e => h2 (by rw [← e])), List.append_nil]
    · exact ih _

@[simp] theorem rewireUses_parent (oldOut newOut : Node) (w : Wire) (g : Graph) (ts : List (Node × Nat)) :
    (rewireUses oldOut newOut w g ts).parent = g.parent := by
  induction ts generalizing g with
  | nil => rfl
  | cons x xs ih =>
    rw [rewireUses]
    split
    · rw [ih]; rfl
    · exact ih _

/-- Outputs that are disconnected. -/
def regWires (count : τ → Option Count) (outs : List (τ × Wire)) : List Wire :=
  (outs.filter fun x => (regOut count x.1).isSome).map Prod.snd

theorem regWires_cons (count : τ → Option Count) (x : τ × Wire) (xs : List (τ × Wire)) (w : Wire) :
    w ∈ regWires count (x :: xs) ↔ ((regOut count x.1).isSome ∧ w = x.2) ∨ w ∈ regWires count xs := by
  unfold regWires
  rw [List.filter_cons]
  split
  · next h => simp [h]
  · next h => simp [h]

theorem rewireOutputs_spec {count : τ → Option Count} {oldOut newOut : Node} {g : Graph}
    {outs : List (τ × Wire)} {qs bs : List Nat} {r : Graph × List Tracked}
    (h : rewireOutputs count oldOut newOut g outs qs bs = some r) :
    r.1.parent = g.parent ∧ ∀ t : Node × Nat, t.1 ≠ oldOut → t.1 ≠ newOut →
      r.1.into t = (g.into t).filter fun w => w ∉ regWires count outs := by
  induction outs generalizing g qs bs r with
  | nil =>
    rw [rewireOutputs] at h
    cases h
    exact ⟨rfl, fun t _ _ => (List.filter_eq_self.mpr (by simp [regWires])).symm⟩
  | cons x xs ih =>
    rw [rewireOutputs] at h
    cases hc : regOut count x.1 with
    | some c =>
      rw [hc] at h
      simp only at h
      split at h
      · obtain ⟨r', hr, rfl⟩ := Option.map_eq_some_iff.mp h
        obtain ⟨h1, h2⟩ := ih hr
        refine ⟨h1, fun t t1 t2 => ?_⟩
        simp only
        rw [h2 t t1 t2, into_disconnectOut, List.filter_filter]
        apply List.filter_congr
        intro w _
        by_cases e : w = x.2 <;> simp [regWires_cons, hc, e]
      · cases h
    | none =>
      rw [hc] at h
      simp only at h
      obtain ⟨h1, h2⟩ := ih h
      refine ⟨by rw [h1]; simp, fun t t1 t2 => ?_⟩
      rw [h2 t t1 t2, rewireUses_into _ _ _ _ _ _ t1 t2]
      have e : regWires count (x :: xs) = regWires count xs := by simp [regWires, hc]
      rw [e]

/-- The effect of an insertion on a port. -/
theorem insertExternal_spec {count : τ → Option Count} {r : Regions} {g : Graph} {s : Sub τ}
    {fs : List (Option Wire)} {qs bs : List Nat} {res : Graph × List Tracked}
    (h : insertExternal count r g s fs qs bs = some res) (hn : (s.ins.map Prod.snd).Nodup) :
    (∀ n, res.1.parent n = if n ∈ s.nodes then some r.new else g.parent n) ∧ s.ins.length = fs.length ∧
      (∀ t : Node × Nat, t.1 ≠ r.oldOut → t.1 ≠ r.newOut → t ∉ s.ins.map Prod.snd →
        res.1.into t = (g.into t).filter fun w => w ∉ regWires count s.outs) ∧
      ∀ x ∈ s.ins.zip fs, x.1.2.1 ≠ r.oldOut → x.1.2.1 ≠ r.newOut →
        res.1.into x.1.2 = (g.into x.1.2 ++ added r.oldIn r.newIn (g.into x.1.2) x.2).filter
          fun w => w ∉ regWires count s.outs := by
  rw [insertExternal] at h
  obtain ⟨g1, e1, e2⟩ := Option.bind_eq_some_iff.mp h
  obtain ⟨p1, l1, a1, b1⟩ := rewireInputs_spec e1 hn
  obtain ⟨p2, c2⟩ := rewireOutputs_spec e2
  have hi : ∀ t, (reparent g r.new s.nodes).into t = g.into t := fun t => into_links _ _ (by simp) t
  refine ⟨fun n => ?_, l1, fun t t1 t2 t3 => ?_, fun x hx t1 t2 => ?_⟩
  · rw [p2, p1, reparent_parent]
  · rw [c2 t t1 t2, a1 t t3, hi]
  · rw [c2 _ t1 t2, b1 x hx, hi]

/-! ### All steps -/

theorem runEvents_append (count : τ → Option Count) (r : Regions) (g : Graph) (a b : List (Event τ)) :
    runEvents count r g (a ++ b) = (runEvents count r g a).bind fun g => runEvents count r g b := by
  induction a generalizing g with
  | nil => rfl
  | cons e a ih =>
    cases e with
    | links ls => exact ih _
    | insert s fs qs bs =>
      simp only [List.cons_append, runEvents, Option.bind_assoc]
      congr 1
      funext x
      exact ih _

theorem into_append (g : Graph) (ls : List Link) (t : Node × Nat) (h : ∀ l ∈ ls, l.dst ≠ t) :
    ({ g with links := g.links ++ ls } : Graph).into t = g.into t := by
  simp only [Graph.into, List.filter_append]
  have e : ls.filter (fun l => decide (l.dst = t)) = [] :=
    List.filter_eq_nil_iff.mpr (by intro l hl; simp [h l hl])
  rw [e, List.append_nil]

theorem inserted_cons_insert {s s' : Sub τ} {fs fs' : List (Option Wire)} {qs bs : List Nat}
    {es : List (Event τ)} (h : Inserted es s' fs') : Inserted (.insert s fs qs bs :: es) s' fs' := by
  obtain ⟨a, b, h⟩ := h
  exact ⟨a, b, List.mem_cons_of_mem _ h⟩

theorem inserted_cons_iff {s s' : Sub τ} {fs fs' : List (Option Wire)} {qs bs : List Nat}
    {es : List (Event τ)} : Inserted (.insert s fs qs bs :: es) s' fs' ↔
      (s' = s ∧ fs' = fs) ∨ Inserted es s' fs' := by
  constructor
  · rintro ⟨a, b, h⟩
    rcases List.mem_cons.mp h with h | h
    · cases h; exact .inl ⟨rfl, rfl⟩
    · exact .inr ⟨a, b, h⟩
  · rintro (⟨rfl, rfl⟩ | h)
    · exact ⟨qs, bs, List.mem_cons_self⟩
    · exact inserted_cons_insert h

theorem inserted_links_iff {s' : Sub τ} {fs' : List (Option Wire)} {ls : List Link}
    {es : List (Event τ)} : Inserted (.links ls :: es) s' fs' ↔ Inserted es s' fs' := by
  constructor
  · rintro ⟨a, b, h⟩
    rcases List.mem_cons.mp h with h | h
    · cases h
    · exact ⟨a, b, h⟩
  · rintro ⟨a, b, h⟩
    exact ⟨a, b, List.mem_cons_of_mem _ h⟩

theorem runEvents_parent {count : τ → Option Count} {r : Regions} {g g' : Graph} {es : List (Event τ)}
    (h : runEvents count r g es = some g') (hn : ∀ s fs, Inserted es s fs → (s.ins.map Prod.snd).Nodup) (n : Node) :
    ((∃ s fs, Inserted es s fs ∧ n ∈ s.nodes) → g'.parent n = some r.new) ∧
      ((¬ ∃ s fs, Inserted es s fs ∧ n ∈ s.nodes) → g'.parent n = g.parent n) := by
  induction es generalizing g with
  | nil =>
    cases h
    refine ⟨?_, fun _ => rfl⟩
    rintro ⟨s, fs, ⟨_, _, h⟩, _⟩
    cases h
  | cons e es ih =>
    cases e with
    | links ls =>
      simp only [inserted_links_iff] at hn ⊢
      exact ih (g := { g with links := g.links ++ ls }) h hn
    | insert s fs qs bs =>
      rw [runEvents] at h
      obtain ⟨x, hx, h⟩ := Option.bind_eq_some_iff.mp h
      obtain ⟨i1, i2⟩ := ih h fun s' fs' hi => hn s' fs' (inserted_cons_insert hi)
      obtain ⟨p, -⟩ := insertExternal_spec hx (hn s fs (inserted_cons_iff.mpr (.inl ⟨rfl, rfl⟩)))
      by_cases hl : ∃ s' fs', Inserted es s' fs' ∧ n ∈ s'.nodes
      · refine ⟨fun _ => i1 hl, fun hc => ?_⟩
        obtain ⟨s', fs', h1, h2⟩ := hl
        exact absurd ⟨s', fs', inserted_cons_insert h1, h2⟩ hc
      · constructor
        · rintro ⟨s', fs', h1, h2⟩
          rcases inserted_cons_iff.mp h1 with ⟨rfl, rfl⟩ | h1
          · rw [i2 hl, p, if_pos h2]
          · exact absurd ⟨s', fs', h1, h2⟩ hl
        · intro hc
          rw [i2 hl, p, if_neg]
          intro hm
          exact hc ⟨s, fs, inserted_cons_iff.mpr (.inl ⟨rfl, rfl⟩), hm⟩

/-- Steps that do not touch a port only remove links from outputs that became registers. -/
theorem runEvents_into {count : τ → Option Count} {r : Regions} {g g' : Graph} {es : List (Event τ)}
    (h : runEvents count r g es = some g') (hn : ∀ s fs, Inserted es s fs → (s.ins.map Prod.snd).Nodup)
    {t : Node × Nat} (t1 : t.1 ≠ r.oldOut) (t2 : t.1 ≠ r.newOut)
    (hl : ∀ ls, Event.links ls ∈ es → ∀ l ∈ ls, l.dst ≠ t)
    (hi : ∀ s fs, Inserted es s fs → t ∉ s.ins.map Prod.snd) :
    ∃ p : Wire → Bool, g'.into t = (g.into t).filter p ∧
      ∀ w, p w = false ↔ ∃ s fs, Inserted es s fs ∧ w ∈ regWires count s.outs := by
  induction es generalizing g with
  | nil =>
    cases h
    refine ⟨fun _ => true, (List.filter_eq_self.mpr fun _ _ => rfl).symm, fun w => ?_⟩
    simp only [Bool.true_eq_false, false_iff]
    rintro ⟨s, fs, ⟨_, _, h⟩, _⟩
    cases h
  | cons e es ih =>
    cases e with
    | links ls =>
      simp only [inserted_links_iff] at hn hi ⊢
      obtain ⟨p, h1, h2⟩ := ih (g := { g with links := g.links ++ ls }) h hn
        (fun ls hls => hl ls (List.mem_cons_of_mem _ hls)) hi
      rw [into_append _ _ _ (hl ls List.mem_cons_self)] at h1
      exact ⟨p, h1, h2⟩
    | insert s fs qs bs =>
      rw [runEvents] at h
      obtain ⟨x, hx, h⟩ := Option.bind_eq_some_iff.mp h
      have hs : Inserted (.insert s fs qs bs :: es) s fs := inserted_cons_iff.mpr (.inl ⟨rfl, rfl⟩)
      obtain ⟨p, h1, h2⟩ := ih h (fun s' fs' hi => hn s' fs' (inserted_cons_insert hi))
        (fun ls hls => hl ls (List.mem_cons_of_mem _ hls)) (fun s' fs' h => hi s' fs' (inserted_cons_insert h))
      obtain ⟨-, -, c, -⟩ := insertExternal_spec hx (hn s fs hs)
      rw [c t t1 t2 (hi s fs hs), List.filter_filter] at h1
      refine ⟨_, h1, fun w => ?_⟩
      simp only [inserted_cons_iff]
      rw [Bool.and_eq_false_iff, h2, decide_eq_false_iff_not, Decidable.not_not]
      constructor
      · rintro (⟨s', fs', h3, h4⟩ | h3)
        · exact ⟨s', fs', .inr h3, h4⟩
        · exact ⟨s, fs, .inl ⟨rfl, rfl⟩, h3⟩
      · rintro ⟨s', fs', ⟨rfl, rfl⟩ | h3, h4⟩
        · exact .inr h4
        · exact .inl ⟨s', fs', h3, h4⟩

theorem moveInputs_into (r : Regions) (g : Graph) (t : Node × Nat) :
    (moveInputs r g).into t = g.into t ++
      if g.parent t.1 ≠ some r.old ∧ g.parent t.1 ≠ some r.new then
        ((g.into t).filter fun w => w.1 = r.oldIn).map fun w => (r.newIn, w.2)
      else [] := by
  simp only [moveInputs, Graph.into, List.filter_append, List.map_append, List.append_cancel_left_eq]
  induction g.links with
  | nil => simp
  | cons l ls ih =>
    obtain ⟨s, d⟩ := l
    simp only [List.filter_cons]
    by_cases h1 : d = t
    · subst h1
      by_cases h2 : s.1 = r.oldIn
      · by_cases h3 : g.parent d.1 ≠ some r.old ∧ g.parent d.1 ≠ some r.new
        · rw [if_pos h3] at ih ⊢
          simp only [ne_eq] at ih h3
          simp only [ne_eq, h2, h3, not_false_eq_true, and_self, decide_true, if_true, List.map_cons,
            List.filter_cons, ih]
        · rw [if_neg h3] at ih ⊢
          rw [if_neg (by simp only [decide_eq_true_eq]; exact fun h => h3 h.2)]
          exact ih
      · simp only [h2, false_and, decide_false, Bool.false_eq_true, if_false, if_true, decide_true,
          List.map_cons, List.filter_cons] at ih ⊢
        exact ih
    · simp only [h1, decide_false, Bool.false_eq_true, if_false]
      split
      · simp only [List.map_cons, List.filter_cons, h1, decide_false, Bool.false_eq_true, if_false]
        exact ih
      · exact ih

theorem removeOld_into (inside : Node → List Node) (r : Regions) (g : Graph) (t : Node × Nat) (gone : Node → Bool)
    (hg : ∀ n, gone n = true ↔ ∃ x ∈ inside n, g.parent x = some r.old) (ht : gone t.1 = false) :
    (removeOld inside r g).into t = (g.into t).filter fun w => !gone w.1 := by
  have e : ∀ n, ((inside n).any fun x => g.parent x == some r.old) = gone n := by
    intro n
    rw [Bool.eq_iff_iff, hg]
    simp
  simp only [removeOld, e, Graph.into, List.filter_filter, List.filter_map]
  congr 1
  apply List.filter_congr
  rintro ⟨s, d⟩ -
  by_cases h : d = t
  · subst h; simp [ht]
  · simp [h]

/-! ### The whole round -/

section Round

variable {o : Ops τ} {count : τ → Option Count} {inside : Node → List Node} {r : Regions} {entry : Node}
  {g g' : Graph} {es : List (Event τ)}

theorem regOut_isSome {count : τ → Option Count} {t : τ} :
    (regOut count t).isSome ↔ ∃ c, count t = some c ∧ c.params = 0 := by
  unfold regOut
  cases h : count t with
  | none => simp
  | some c => by_cases hp : c.params = 0 <;> simp [hp]

theorem Setting.region (H : Setting o count inside r entry g es) {s : Sub τ} {fs : List (Option Wire)}
    (hs : Inserted es s fs) : ∃ n ns, s.nodes = n :: ns ∧ g.parent n = some r.old ∧
      s.ins = s.nodes.flatMap (nodeIns o g s.nodes r.old) ∧ s.outs = s.nodes.flatMap (nodeOuts o g s.nodes r.old) := by
  obtain ⟨h1, h2, h3, h4⟩ := H.made s fs hs
  cases hn : s.nodes with
  | nil => exact absurd hn h2
  | cons n ns =>
    have hp := (h4 n (by simp [hn])).1
    rw [hn] at h1
    refine ⟨n, ns, rfl, hp, ?_, ?_⟩
    · have := congrArg Sub.ins h1
      simpa only [tryFromNodes, hp] using this
    · have := congrArg Sub.outs h1
      simpa only [tryFromNodes, hp] using this

theorem Setting.mem_ins (H : Setting o count inside r entry g es) {s : Sub τ} {fs : List (Option Wire)}
    (hs : Inserted es s fs) (x : τ × (Node × Nat)) : x ∈ s.ins ↔ x.2.1 ∈ s.nodes ∧
      (∃ ts, o.ins x.2.1 = some ts ∧ ts[x.2.2]? = some x.1) ∧
      ∃ w ∈ g.into x.2, w.1 ∉ s.nodes ∧ g.parent w.1 = some r.old := by
  obtain ⟨n, ns, hn, hp, hi, ho⟩ := H.region hs
  rw [hi, List.mem_flatMap]
  constructor
  · rintro ⟨m, hm, hx⟩
    obtain ⟨ts, h1, h2, h3, h4⟩ := mem_nodeIns.mp hx
    rw [h2]
    exact ⟨hm, ⟨ts, h1, h3⟩, h4⟩
  · rintro ⟨hm, ⟨ts, h1, h3⟩, h4⟩
    exact ⟨_, hm, mem_nodeIns.mpr ⟨ts, h1, rfl, h3, h4⟩⟩

theorem Setting.mem_outs (H : Setting o count inside r entry g es) {s : Sub τ} {fs : List (Option Wire)}
    (hs : Inserted es s fs) (x : τ × Wire) : x ∈ s.outs ↔ x.2.1 ∈ s.nodes ∧ (o.ins x.2.1).isSome ∧
      (o.outs x.2.1)[x.2.2]? = some x.1 ∧
      ∃ t ∈ g.outOf x.2, t.1 ∉ s.nodes ∧ g.parent t.1 = some r.old := by
  obtain ⟨n, ns, hn, hp, hi, ho⟩ := H.region hs
  rw [ho, List.mem_flatMap]
  constructor
  · rintro ⟨m, hm, hx⟩
    obtain ⟨h1, h2, h3, h4⟩ := mem_nodeOuts.mp hx
    rw [h2] at *
    exact ⟨hm, h1, h3, h4⟩
  · rintro ⟨hm, h1, h3, h4⟩
    exact ⟨_, hm, mem_nodeOuts.mpr ⟨h1, rfl, h3, h4⟩⟩

theorem Setting.mem_regWires (H : Setting o count inside r entry g es) {s : Sub τ} {fs : List (Option Wire)}
    (hs : Inserted es s fs) (w : Wire) : w ∈ regWires count s.outs ↔ RegisterOutput o count g r.old s w := by
  unfold regWires RegisterOutput
  simp only [List.mem_map, List.mem_filter]
  constructor
  · rintro ⟨x, ⟨hx, hc⟩, rfl⟩
    obtain ⟨h1, h2, h3, t, ht, h4, h5⟩ := (H.mem_outs hs x).mp hx
    obtain ⟨c, hc, hp⟩ := regOut_isSome.mp hc
    exact ⟨h1, h2, ⟨_, c, h3, hc, hp⟩, _, mem_outOf.mp ht, rfl, h4, h5⟩
  · rintro ⟨h1, h2, ⟨t, c, h3, hc, hp⟩, l, hl, rfl, h4, h5⟩
    exact ⟨(t, l.src), ⟨(H.mem_outs hs _).mpr ⟨h1, h2, h3, l.dst, mem_outOf.mpr hl, h4, h5⟩,
      regOut_isSome.mpr ⟨c, hc, hp⟩⟩, rfl⟩

theorem Setting.nodup (H : Setting o count inside r entry g es) {s : Sub τ} {fs : List (Option Wire)}
    (hs : Inserted es s fs) : (s.ins.map Prod.snd).Nodup ∧ (s.outs.map Prod.snd).Nodup := by
  obtain ⟨h1, h2, h3, h4⟩ := H.made s fs hs
  have h := made_ports_nodup (o := o) (g := g) (entry := entry) h3
  rw [← h1] at h
  exact h

/-- The nodes within a subgraph in its region are its nodes. -/
theorem Setting.within (H : Setting o count inside r entry g es) {s : Sub τ} {fs : List (Option Wire)}
    (hs : Inserted es s fs) {n x : Node} (hw : Within inside s n) (hx : x ∈ inside n)
    (hp : g.parent x = some r.old) : x ∈ s.nodes := by
  obtain ⟨y, hy, hm⟩ := hw
  have := H.unique n x hx y hy hp ((H.made s fs hs).2.2.2 y hm).1
  rw [this]; exact hm

theorem Setting.split (H : Setting o count inside r entry g es) {s : Sub τ} {fs : List (Option Wire)}
    (hs : Inserted es s fs) : ∃ pre qs bs post, es = pre ++ .insert s fs qs bs :: post ∧
      ∀ s' fs', Inserted pre s' fs' ∨ Inserted post s' fs' → ∀ n ∈ s.nodes, n ∉ s'.nodes := by
  obtain ⟨qs, bs, h⟩ := hs
  obtain ⟨pre, post, rfl⟩ := List.append_of_mem h
  refine ⟨pre, qs, bs, post, rfl, ?_⟩
  have hp := H.disjoint
  rw [List.pairwise_append, List.pairwise_cons] at hp
  obtain ⟨-, ⟨h1, -⟩, h2⟩ := hp
  rintro s' fs' (⟨qs', bs', hm⟩ | ⟨qs', bs', hm⟩) n hn hn'
  · exact h2 _ hm _ List.mem_cons_self n hn' hn
  · exact h1 _ hm n hn hn'

theorem inserted_append {a b : List (Event τ)} {s : Sub τ} {fs : List (Option Wire)} :
    Inserted (a ++ b) s fs ↔ Inserted a s fs ∨ Inserted b s fs := by
  constructor
  · rintro ⟨qs, bs, h⟩
    rcases List.mem_append.mp h with h | h
    · exact .inl ⟨qs, bs, h⟩
    · exact .inr ⟨qs, bs, h⟩
  · rintro (⟨qs, bs, h⟩ | ⟨qs, bs, h⟩)
    · exact ⟨qs, bs, List.mem_append_left _ h⟩
    · exact ⟨qs, bs, List.mem_append_right _ h⟩

theorem zip_snd_unique {α β γ : Type} {l : List (α × β)} {k : List γ} (h : (l.map Prod.snd).Nodup)
    {x y : (α × β) × γ} (hx : x ∈ l.zip k) (hy : y ∈ l.zip k) (e : x.1.2 = y.1.2) : x = y := by
  induction l generalizing k with
  | nil => simp at hx
  | cons a l ih =>
    cases k with
    | nil => simp at hx
    | cons b k =>
      obtain ⟨h1, h2⟩ := List.nodup_cons.mp h
      simp only [List.zip_cons_cons, List.mem_cons] at hx hy
      rcases hx with rfl | hx <;> rcases hy with rfl | hy
      · rfl
      · exact absurd (by rw [e]; exact List.mem_map_of_mem (List.of_mem_zip hy).1) h1
      · exact absurd (by rw [← e]; exact List.mem_map_of_mem (List.of_mem_zip hx).1) h1
      · exact ih h2 hx hy

theorem mem_zip_of_left {α β : Type} {l : List α} {k : List β} (h : l.length = k.length) {a : α} (ha : a ∈ l) :
    ∃ b, (a, b) ∈ l.zip k := by
  induction l generalizing k with
  | nil => simp at ha
  | cons x l ih =>
    cases k with
    | nil => simp at h
    | cons b k =>
      rcases List.mem_cons.mp ha with rfl | ha
      · exact ⟨b, by simp⟩
      · obtain ⟨c, hc⟩ := ih (by simpa using h) ha
        exact ⟨c, by simp [hc]⟩

/-- What the steps leave at a port of a subgraph: the link unless it comes from a register, and a new
one. -/
theorem Setting.run_into (H : Setting o count inside r entry g es) (h : runEvents count r g es = some g')
    {s : Sub τ} {fs : List (Option Wire)} (hs : Inserted es s fs) {t : Node × Nat} (ht : Within inside s t.1)
    {w : Wire} (hw : g.into t = [w]) :
    ∃ kept add, g'.into t = kept ++ add ∧
      ((∃ s' fs', Inserted es s' fs' ∧ RegisterOutput o count g r.old s' w) → kept = []) ∧
      ((¬ ∃ s' fs', Inserted es s' fs' ∧ RegisterOutput o count g r.old s' w) → kept = [w]) ∧
      (∀ f, Found s fs t f → add = [f]) ∧
      ((¬ ∃ f, Found s fs t f) → t.1 ∈ s.nodes → w.1 = r.oldIn → add = [(r.newIn, w.2)]) ∧
      ((¬ ∃ f, Found s fs t f) → w.1 ≠ r.oldIn ∨ t.1 ∉ s.nodes → add = []) := by
  obtain ⟨pre, qs, bs, post, he, hd⟩ := H.split hs
  have hi : ∀ s' fs', Inserted es s' fs' ↔ (s' = s ∧ fs' = fs) ∨ Inserted pre s' fs' ∨ Inserted post s' fs' := by
    intro s' fs'
    rw [he, inserted_append, inserted_cons_iff]
    constructor
    · rintro (h | h | h)
      · exact .inr (.inl h)
      · exact .inl h
      · exact .inr (.inr h)
    · rintro (h | h | h)
      · exact .inr (.inl h)
      · exact .inl h
      · exact .inr (.inr h)
  have t1 : t.1 ≠ r.oldOut := by
    intro e
    have := H.within hs ht (x := r.oldOut) (by rw [e]; exact H.self _) H.outputOld
    exact ((H.made s fs hs).2.2.2 _ this).2.2 rfl
  have t2 : t.1 ≠ r.newOut := by
    intro e
    obtain ⟨x, hx, hm⟩ := ht
    rw [e] at hx
    exact H.newOut x hx ((H.made s fs hs).2.2.2 x hm).1
  have hoth : ∀ s' fs', Inserted pre s' fs' ∨ Inserted post s' fs' → t ∉ s'.ins.map Prod.snd := by
    intro s' fs' h' hm
    obtain ⟨x, hx, rfl⟩ := List.mem_map.mp hm
    have hs' := (hi s' fs').mpr (.inr h')
    have hx' := ((H.mem_ins hs' x).mp hx).1
    have := H.within hs ht (H.self _) ((H.made s' fs' hs').2.2.2 _ hx').1
    exact hd s' fs' h' _ this hx'
  have hdec : ∀ ls, Event.links ls ∈ es → ∀ l ∈ ls, l.dst ≠ t := by
    intro ls hls l hl e
    exact (H.decoded ls hls l hl).2 s fs hs (by rw [e]; exact ht)
  rw [he, runEvents_append] at h
  obtain ⟨g1, h1, h⟩ := Option.bind_eq_some_iff.mp h
  rw [runEvents] at h
  obtain ⟨x2, h2, h3⟩ := Option.bind_eq_some_iff.mp h
  obtain ⟨p1, i1, k1⟩ := runEvents_into h1 (fun s' fs' h => (H.nodup ((hi s' fs').mpr (.inr (.inl h)))).1) t1 t2
    (fun ls hls => hdec ls (by rw [he]; exact List.mem_append_left _ hls)) (fun s' fs' h => hoth s' fs' (.inl h))
  obtain ⟨p3, i3, k3⟩ := runEvents_into h3 (fun s' fs' h => (H.nodup ((hi s' fs').mpr (.inr (.inr h)))).1) t1 t2
    (fun ls hls => hdec ls (by rw [he]; simp [hls])) (fun s' fs' h => hoth s' fs' (.inr h))
  obtain ⟨-, len, i2, j2⟩ := insertExternal_spec h2 (H.nodup hs).1
  have hfound : ∀ f, Found s fs t f → f ∉ regWires count s.outs ∧ p3 f = true := by
    rintro f ⟨x, hx, e1, e2⟩
    have hmem : some f ∈ fs := by rw [← e2]; exact (List.of_mem_zip hx).2
    have a2 := (H.available s fs hs f hmem).2
    have a3 : ∀ s' fs', Inserted post s' fs' → f.1 ∉ s'.nodes := by
      rintro s' fs' ⟨qs', bs', hm⟩
      have ho := H.ordered
      rw [he, List.pairwise_append, List.pairwise_cons] at ho
      exact ho.2.1.1 _ hm f hmem
    constructor
    · intro hm
      exact a2 ((H.mem_regWires hs f).mp hm).1
    · cases hp : p3 f with
      | true => rfl
      | false =>
        obtain ⟨s', fs', b1, b2⟩ := (k3 f).mp hp
        exact absurd ((H.mem_regWires ((hi s' fs').mpr (.inr (.inr b1))) f).mp b2).1 (a3 s' fs' b1)
  have hnot : ∀ n, (n = r.oldIn ∨ n = r.newIn) → ∀ k, ∀ s' fs', Inserted es s' fs' → (n, k) ∉ regWires count s'.outs := by
    intro n hn k s' fs' hs' hm
    have hm := ((H.mem_regWires hs' (n, k)).mp hm).1
    have := (H.made s' fs' hs').2.2.2 n hm
    rcases hn with rfl | rfl
    · exact this.2.1 rfl
    · exact H.newIn _ (H.self _) this.1
  have hnot3 : ∀ n, (n = r.oldIn ∨ n = r.newIn) → ∀ k, p3 (n, k) = true := by
    intro n hn k
    cases hp : p3 (n, k) with
    | true => rfl
    | false =>
      obtain ⟨s', fs', b1, b2⟩ := (k3 _).mp hp
      exact absurd b2 (hnot n hn k s' fs' ((hi s' fs').mpr (.inr (.inr b1))))
  have hnot1 : ∀ n, (n = r.oldIn ∨ n = r.newIn) → ∀ k, p1 (n, k) = true := by
    intro n hn k
    cases hp : p1 (n, k) with
    | true => rfl
    | false =>
      obtain ⟨s', fs', b1, b2⟩ := (k1 _).mp hp
      exact absurd b2 (hnot n hn k s' fs' ((hi s' fs').mpr (.inr (.inl b1))))
  -- what is kept
  have hkeep : ∀ b : Bool, b = (decide (w ∉ regWires count s.outs) && (p1 w && p3 w)) →
      ((∃ s' fs', Inserted es s' fs' ∧ RegisterOutput o count g r.old s' w) → b = false) ∧
      ((¬ ∃ s' fs', Inserted es s' fs' ∧ RegisterOutput o count g r.old s' w) → b = true) := by
    rintro b rfl
    constructor
    · rintro ⟨s', fs', b1, b2⟩
      have b3 := (H.mem_regWires b1 w).mpr b2
      rcases (hi s' fs').mp b1 with ⟨rfl, rfl⟩ | b1 | b1
      · simp [b3]
      · simp [(k1 w).mpr ⟨s', fs', b1, b3⟩]
      · simp [(k3 w).mpr ⟨s', fs', b1, b3⟩]
    · intro hc
      have c1 : w ∉ regWires count s.outs := fun hm => hc ⟨s, fs, hs, (H.mem_regWires hs w).mp hm⟩
      have c2 : p1 w = true := by
        cases hp : p1 w with
        | true => rfl
        | false =>
          obtain ⟨s', fs', b1, b2⟩ := (k1 w).mp hp
          have b1 := (hi s' fs').mpr (.inr (.inl b1))
          exact absurd ⟨s', fs', b1, (H.mem_regWires b1 w).mp b2⟩ hc
      have c3 : p3 w = true := by
        cases hp : p3 w with
        | true => rfl
        | false =>
          obtain ⟨s', fs', b1, b2⟩ := (k3 w).mp hp
          have b1 := (hi s' fs').mpr (.inr (.inr b1))
          exact absurd ⟨s', fs', b1, (H.mem_regWires b1 w).mp b2⟩ hc
      simp [c1, c2, c3]
  obtain ⟨kk1, kk2⟩ := hkeep _ rfl
  refine ⟨if (decide (w ∉ regWires count s.outs) && (p1 w && p3 w)) = true then [w] else [],
    if ht : t ∈ s.ins.map Prod.snd then
      match (s.ins.zip fs).find? fun x => x.1.2 = t with
      | some x => added r.oldIn r.newIn [w] x.2
      | none => []
    else [], ?_, fun hc => by rw [kk1 hc]; rfl, fun hc => by rw [kk2 hc]; rfl, ?_, ?_, ?_⟩
  all_goals by_cases hin : t ∈ s.ins.map Prod.snd
  all_goals simp only [hin, dite_true, dite_false]
  · -- boundary
    obtain ⟨y, hy, hyt⟩ := List.mem_map.mp hin
    obtain ⟨b, hb⟩ := mem_zip_of_left len hy
    have hfind : ((s.ins.zip fs).find? fun x => x.1.2 = t) = some (y, b) := by
      cases hf : (s.ins.zip fs).find? fun x => x.1.2 = t with
      | none =>
        have := List.find?_eq_none.mp hf (y, b) hb
        simp [hyt] at this
      | some z =>
        have z1 := List.mem_of_find?_eq_some hf
        have z2 := List.find?_some hf
        simp only [decide_eq_true_eq] at z2
        rw [zip_snd_unique (H.nodup hs).1 z1 hb (by rw [z2, ← hyt])]
    rw [hfind]
    have hy2 : y.2.1 ≠ r.oldOut ∧ y.2.1 ≠ r.newOut := by rw [hyt]; exact ⟨t1, t2⟩
    have j := j2 (y, b) hb hy2.1 hy2.2
    simp only [hyt] at j ⊢
    rw [i3, j, i1, hw]
    -- the link added
    have hadd : added r.oldIn r.newIn (List.filter p1 [w]) b = added r.oldIn r.newIn [w] b := by
      cases b with
      | some f => rfl
      | none =>
        cases hp : p1 w with
        | true => simp [hp]
        | false =>
          have hne : w.1 ≠ r.oldIn := by
            intro e
            have := hnot1 w.1 (.inl e) w.2
            rw [show ((w.1, w.2) : Wire) = w from rfl, hp] at this
            cases this
          simp [hp, added, hne]
    rw [hadd]
    have hsafe : ∀ a ∈ added r.oldIn r.newIn [w] b, a ∉ regWires count s.outs ∧ p3 a = true := by
      intro a ha
      cases b with
      | some f =>
        simp only [added, List.mem_singleton] at ha
        subst ha
        exact hfound a ⟨(y, some a), hb, hyt, rfl⟩
      | none =>
        simp only [added] at ha
        split at ha
        · cases ha
        · simp only [List.mem_singleton] at ha
          subst ha
          exact ⟨hnot r.newIn (.inr rfl) w.2 s fs hs, hnot3 r.newIn (.inr rfl) w.2⟩
    rw [List.filter_filter, List.filter_append]
    congr 1
    · rw [List.filter_filter, List.filter_cons, List.filter_nil]
      congr 1
      cases p1 w <;> cases p3 w <;> simp
    · rw [List.filter_eq_self]
      intro a ha
      obtain ⟨s1, s2⟩ := hsafe a ha
      simp [s1, s2]
  · rw [i3, i2 t t1 t2 hin, i1, hw, List.append_nil, List.filter_filter, List.filter_filter, List.filter_cons,
      List.filter_nil]
    congr 1
    cases p1 w <;> cases p3 w <;> simp
  · rintro f ⟨x, hx, e1, e2⟩
    have hfind : ((s.ins.zip fs).find? fun x => x.1.2 = t) = some x := by
      cases hf : (s.ins.zip fs).find? fun x => x.1.2 = t with
      | none =>
        have := List.find?_eq_none.mp hf x hx
        simp [e1] at this
      | some z =>
        have z1 := List.mem_of_find?_eq_some hf
        have z2 := List.find?_some hf
        simp only [decide_eq_true_eq] at z2
        rw [zip_snd_unique (H.nodup hs).1 z1 hx (by rw [z2, e1])]
    rw [hfind]
    simp only [e2]
    rfl
  · rintro f ⟨x, hx, e1, e2⟩
    exact absurd (by rw [← e1]; exact List.mem_map_of_mem (List.of_mem_zip hx).1) hin
  · intro hnf hm hold
    cases hf : (s.ins.zip fs).find? fun x => x.1.2 = t with
    | none =>
      obtain ⟨y, hy, hyt⟩ := List.mem_map.mp hin
      obtain ⟨b, hb⟩ := mem_zip_of_left len hy
      have := List.find?_eq_none.mp hf (y, b) hb
      simp [hyt] at this
    | some z =>
      have z1 := List.mem_of_find?_eq_some hf
      have z2 := List.find?_some hf
      simp only [decide_eq_true_eq] at z2
      cases hz : z.2 with
      | some f => exact absurd ⟨f, z, z1, z2, hz⟩ hnf
      | none => simp [hz, added, hold]
  · intro hnf hm hold
    exfalso
    apply hin
    have hl : (⟨w, t⟩ : Link) ∈ g.links := mem_into.mp (by rw [hw]; simp)
    obtain ⟨ts, o1, o2⟩ := H.ports s fs hs _ hl hm
    refine List.mem_map.mpr ⟨(ts[t.2], t), (H.mem_ins hs _).mpr ⟨hm, ⟨ts, o1, ?_⟩, w, by rw [hw]; simp, ?_, ?_⟩, rfl⟩
    · exact List.getElem?_eq_getElem o2
    · intro hc
      rw [hold] at hc
      exact ((H.made s fs hs).2.2.2 _ hc).2.1 rfl
    · rw [hold]; exact H.inputOld
  · intro hnf hor
    cases hf : (s.ins.zip fs).find? fun x => x.1.2 = t with
    | none => rfl
    | some z =>
      have z1 := List.mem_of_find?_eq_some hf
      have z2 := List.find?_some hf
      simp only [decide_eq_true_eq] at z2
      cases hz : z.2 with
      | some f => exact absurd ⟨f, z, z1, z2, hz⟩ hnf
      | none =>
        rcases hor with hor | hor
        · simp [hz, added, hor]
        · obtain ⟨y, hy, hyt⟩ := List.mem_map.mp hin
          exact absurd (by rw [← hyt]; exact ((H.mem_ins hs y).mp hy).1) hor
  · intro _ _; trivial

theorem Setting.gone (H : Setting o count inside r entry g es) (h : runEvents count r g es = some g') (n : Node) :
    (∃ x ∈ inside n, (moveInputs r g').parent x = some r.old) ↔ ¬ Stays inside g r.old es n := by
  have hp := fun x => runEvents_parent h (fun s fs hs => (H.nodup hs).1) x
  change (∃ x ∈ inside n, g'.parent x = some r.old) ↔ _
  constructor
  · rintro ⟨x, hx, hpx⟩ hst
    by_cases hm : ∃ s fs, Inserted es s fs ∧ x ∈ s.nodes
    · rw [(hp x).1 hm] at hpx
      exact H.regionsNe (Option.some.inj hpx).symm
    · rw [(hp x).2 hm] at hpx
      exact hm (hst x hx hpx)
  · intro hst
    apply Classical.byContradiction
    intro hc
    apply hst
    intro x hx hpx
    apply Classical.byContradiction
    intro hm
    exact hc ⟨x, hx, by rw [(hp x).2 hm]; exact hpx⟩

/-- What is left at a port of a subgraph at the end. -/
theorem Setting.reassemble_into (H : Setting o count inside r entry g es)
    (h : reassemble count inside r g es = some g')
    {s : Sub τ} {fs : List (Option Wire)} (hs : Inserted es s fs) {t : Node × Nat} (ht : Within inside s t.1)
    {w : Wire} (hw : g.into t = [w]) :
    ∃ kept add, g'.into t = kept ++ add ∧
      (((∃ s' fs', Inserted es s' fs' ∧ RegisterOutput o count g r.old s' w) ∨ ¬ Stays inside g r.old es w.1) →
        kept = []) ∧
      ((¬ ∃ s' fs', Inserted es s' fs' ∧ RegisterOutput o count g r.old s' w) → Stays inside g r.old es w.1 →
        kept = [w]) ∧
      (∀ f, Found s fs t f → add = [f]) ∧
      ((¬ ∃ f, Found s fs t f) → w.1 = r.oldIn → add = [(r.newIn, w.2)]) ∧
      ((¬ ∃ f, Found s fs t f) → w.1 ≠ r.oldIn → add = []) := by
  rw [reassemble] at h
  obtain ⟨g1, h1, rfl⟩ := Option.map_eq_some_iff.mp h
  obtain ⟨kept, add, e, k1, k2, a1, a2, a3⟩ := H.run_into h1 hs ht hw
  have hp := runEvents_parent h1 (fun s fs hs => (H.nodup hs).1) t.1
  have hstay : Stays inside g r.old es t.1 := fun x hx hpx => ⟨s, fs, hs, H.within hs ht hx hpx⟩
  classical
  have hrem := removeOld_into inside r (moveInputs r g1) t (fun n => decide (¬ Stays inside g r.old es n))
    (fun n => by rw [decide_eq_true_eq]; exact (H.gone h1 n).symm) (by simp [hstay])
  rw [moveInputs_into] at hrem
  have hoS : ¬ Stays inside g r.old es r.oldIn := by
    intro hst
    obtain ⟨s', fs', h1, h2⟩ := hst r.oldIn (H.self _) H.inputOld
    exact ((H.made s' fs' h1).2.2.2 _ h2).2.1 rfl
  have hnS : Stays inside g r.old es r.newIn := fun x hx hpx => absurd hpx (H.newIn x hx)
  have hfS : ∀ f, Found s fs t f → Stays inside g r.old es f.1 := by
    rintro f ⟨x, hx, -, e2⟩
    exact (H.available s fs hs f (by rw [← e2]; exact (List.of_mem_zip hx).2)).1
  have hwl : (⟨w, t⟩ : Link) ∈ g.links := mem_into.mp (by rw [hw]; simp)
  -- elements added by the steps stay
  have haddS : ∀ a ∈ add, Stays inside g r.old es a.1 := by
    intro a ha
    by_cases hf : ∃ f, Found s fs t f
    · obtain ⟨f, hf⟩ := hf
      rw [a1 f hf, List.mem_singleton] at ha
      rw [ha]; exact hfS f hf
    · by_cases hc : w.1 = r.oldIn ∧ t.1 ∈ s.nodes
      · rw [a2 hf hc.2 hc.1, List.mem_singleton] at ha
        rw [ha]; exact hnS
      · rw [a3 hf (by by_cases w.1 = r.oldIn <;> simp_all)] at ha
        cases ha
  refine ⟨kept.filter fun x => decide (Stays inside g r.old es x.1),
    add ++ (if g1.parent t.1 ≠ some r.old ∧ g1.parent t.1 ≠ some r.new then
        ((g1.into t).filter fun w => w.1 = r.oldIn).map fun w => (r.newIn, w.2) else []), ?_, ?_, ?_, ?_, ?_, ?_⟩
  · rw [hrem, e, List.append_assoc, List.filter_append]
    congr 1
    · apply List.filter_congr; intro x _; simp
    · rw [List.filter_eq_self]
      intro x hx
      rw [Bool.not_eq_true', decide_eq_false_iff_not, Classical.not_not]
      rcases List.mem_append.mp hx with hx | hx
      · exact haddS x hx
      · split at hx
        · obtain ⟨y, -, rfl⟩ := List.mem_map.mp hx
          exact hnS
        · cases hx
  · rintro (hc | hc)
    · rw [k1 hc]; rfl
    · by_cases hr : ∃ s' fs', Inserted es s' fs' ∧ RegisterOutput o count g r.old s' w
      · rw [k1 hr]; rfl
      · rw [k2 hr]; simp [hc]
  · intro hr hst
    rw [k2 hr]; simp [hst]
  · intro f hf
    have hm : t.1 ∈ s.nodes := by
      obtain ⟨x, hx, e1, -⟩ := hf
      rw [← e1]; exact ((H.mem_ins hs x.1).mp (List.of_mem_zip hx).1).1
    rw [a1 f hf, hp.1 ⟨s, fs, hs, hm⟩]
    simp
  · intro hf hold
    by_cases hm : t.1 ∈ s.nodes
    · rw [a2 hf hm hold, hp.1 ⟨s, fs, hs, hm⟩]
      simp
    · have hno : ¬ ∃ s' fs', Inserted es s' fs' ∧ t.1 ∈ s'.nodes := by
        rintro ⟨s', fs', q1, q2⟩
        exact hm (H.within hs ht (H.self _) ((H.made s' fs' q1).2.2.2 _ q2).1)
      have hkw : kept = [w] := by
        apply k2
        rintro ⟨s', fs', q1, q2⟩
        exact ((H.made s' fs' q1).2.2.2 _ q2.1).2.1 hold
      rw [e, hkw, a3 hf (.inr hm), hp.2 hno, if_pos]
      · simp [hold]
      · refine ⟨fun hc => hm (H.within hs ht (H.self _) hc), H.freshParent s fs hs t.1 ht⟩
  · intro hf hne
    rw [a3 hf (.inl hne)]
    split
    · rw [e, a3 hf (.inl hne), List.append_nil, List.nil_append, List.map_eq_nil_iff, List.filter_eq_nil_iff]
      intro x hx
      by_cases hr : ∃ s' fs', Inserted es s' fs' ∧ RegisterOutput o count g r.old s' w
      · rw [k1 hr] at hx; cases hx
      · rw [k2 hr, List.mem_singleton] at hx
        simp [hx, hne]
    · rfl

/-- Ports that get a found wire are linked from the region. -/
theorem Setting.found_source (H : Setting o count inside r entry g es)
    {s : Sub τ} {fs : List (Option Wire)} (hs : Inserted es s fs) {t : Node × Nat} {f : Wire} (hf : Found s fs t f)
    {w : Wire} (hw : g.into t = [w]) : t.1 ∈ s.nodes ∧ w.1 ∉ s.nodes ∧ g.parent w.1 = some r.old ∧
      ∃ ty ts, o.ins t.1 = some ts ∧ ts[t.2]? = some ty ∧ ∃ x ∈ s.ins.zip fs, x.1 = (ty, t) := by
  obtain ⟨x, hx, e1, e2⟩ := hf
  subst e1
  obtain ⟨h1, ⟨ts, h2, h3⟩, w', h4, h5, h6⟩ := (H.mem_ins hs x.1).mp (List.of_mem_zip hx).1
  rw [hw, List.mem_singleton] at h4
  subst h4
  exact ⟨h1, h5, h6, x.1.1, ts, h2, h3, x, hx, rfl⟩

theorem insert_length {count : τ → Option Count} {r : Regions} {g g' : Graph} {es : List (Event τ)}
    (h : runEvents count r g es = some g') (hn : ∀ s fs, Inserted es s fs → (s.ins.map Prod.snd).Nodup)
    {s : Sub τ} {fs : List (Option Wire)} (hs : Inserted es s fs) : s.ins.length = fs.length := by
  induction es generalizing g with
  | nil => obtain ⟨_, _, h⟩ := hs; cases h
  | cons e es ih =>
    cases e with
    | links ls =>
      rw [inserted_links_iff] at hs
      exact ih (g := { g with links := g.links ++ ls }) h (fun s fs h => hn s fs (inserted_links_iff.mpr h)) hs
    | insert s' fs' qs bs =>
      rw [runEvents] at h
      obtain ⟨x, hx, h⟩ := Option.bind_eq_some_iff.mp h
      rcases inserted_cons_iff.mp hs with ⟨rfl, rfl⟩ | hs
      · exact (insertExternal_spec hx (hn _ _ (inserted_cons_iff.mpr (.inl ⟨rfl, rfl⟩)))).2.1
      · exact ih h (fun s fs h => hn s fs (inserted_cons_insert h)) hs

end Round

/-! ### Outputs of the region -/

theorem rewireUses_out {oldOut newOut : Node} (hne : oldOut ≠ newOut) (w : Wire) (g : Graph)
    (ts : List (Node × Nat)) (p : Nat) :
    (rewireUses oldOut newOut w g ts).into (newOut, p) =
        g.into (newOut, p) ++ List.replicate (ts.count (oldOut, p)) w ∧
      (rewireUses oldOut newOut w g ts).into (oldOut, p) =
        if (oldOut, p) ∈ ts then [] else g.into (oldOut, p) := by
  induction ts generalizing g with
  | nil => simp [rewireUses]
  | cons t ts ih =>
    rw [rewireUses]
    by_cases h : t.1 = oldOut
    · rw [if_pos h, (ih _).1, (ih _).2, into_connect, into_connect, into_disconnectIn, into_disconnectIn]
      have e : t = (oldOut, t.2) := by rw [← h]
      have hne' : newOut ≠ oldOut := Ne.symm hne
      by_cases hp : t.2 = p
      · subst hp
        rw [e]
        simp only [List.count_cons_self, List.mem_cons, true_or, if_true, Prod.mk.injEq, hne', and_true, if_false,
          List.append_nil, List.replicate_succ, List.append_assoc, List.singleton_append, true_and]
        split <;> rfl
      · have e2 : t ≠ (oldOut, p) := by rw [e]; simp [hp]
        rw [List.count_cons_of_ne e2]
        have e3 : ((oldOut, p) ∈ t :: ts) ↔ ((oldOut, p) ∈ ts) := by
          rw [List.mem_cons]
          exact ⟨fun h => h.resolve_left (Ne.symm e2), .inr⟩
        simp only [e3, Prod.mk.injEq, hne', hp, false_and, and_false, if_false, List.append_nil, true_and]
        have : ¬ p = t.2 := fun h => hp h.symm
        simp [this]
    · rw [if_neg h, (ih _).1, (ih _).2]
      have e2 : t ≠ (oldOut, p) := by intro e; rw [e] at h; exact h rfl
      rw [List.count_cons_of_ne e2]
      have e3 : ((oldOut, p) ∈ t :: ts) ↔ ((oldOut, p) ∈ ts) := by
        rw [List.mem_cons]
        exact ⟨fun h => h.resolve_left (Ne.symm e2), .inr⟩
      simp only [e3, and_self]

theorem count_outOf (g : Graph) (w : Wire) (t : Node × Nat) : (g.outOf w).count t = (g.into t).count w := by
  simp only [Graph.outOf, Graph.into]
  induction g.links with
  | nil => rfl
  | cons l ls ih =>
    simp only [List.filter_cons]
    by_cases h1 : l.src = w <;> by_cases h2 : l.dst = t <;> simp [h1, h2, ih]

/-- Outputs of a subgraph do not change ports of the output nodes to which only another wire goes. -/
theorem rewireOutputs_other {count : τ → Option Count} {oldOut newOut : Node} (hne : oldOut ≠ newOut) {g : Graph}
    {outs : List (τ × Wire)} {qs bs : List Nat} {res : Graph × List Tracked}
    (h : rewireOutputs count oldOut newOut g outs qs bs = some res) {w : Wire} {p : Nat}
    (h1 : ∀ x ∈ g.into (oldOut, p), x = w) (h2 : ∀ x ∈ g.into (newOut, p), x = w) (h3 : w ∉ outs.map Prod.snd) :
    res.1.into (oldOut, p) = g.into (oldOut, p) ∧ res.1.into (newOut, p) = g.into (newOut, p) := by
  induction outs generalizing g qs bs res with
  | nil => rw [rewireOutputs] at h; cases h; exact ⟨rfl, rfl⟩
  | cons x xs ih =>
    simp only [List.map_cons, List.mem_cons, not_or] at h3
    rw [rewireOutputs] at h
    cases hc : regOut count x.1 with
    | some c =>
      rw [hc] at h
      simp only at h
      split at h
      · obtain ⟨r', hr, rfl⟩ := Option.map_eq_some_iff.mp h
        have e1 : (g.disconnectOut x.2).into (oldOut, p) = g.into (oldOut, p) := by
          rw [into_disconnectOut, List.filter_eq_self]
          intro a ha
          simp [h1 a ha, h3.1]
        have e2 : (g.disconnectOut x.2).into (newOut, p) = g.into (newOut, p) := by
          rw [into_disconnectOut, List.filter_eq_self]
          intro a ha
          simp [h2 a ha, h3.1]
        have := ih hr (by rw [e1]; exact h1) (by rw [e2]; exact h2) h3.2
        rw [e1, e2] at this
        exact this
      · cases h
    | none =>
      rw [hc] at h
      simp only at h
      have hz : (oldOut, p) ∉ g.outOf x.2 := by
        intro hm
        exact h3.1 (h1 x.2 (mem_into.mpr (mem_outOf.mp hm))).symm
      obtain ⟨f1, f2⟩ := rewireUses_out hne x.2 g (g.outOf x.2) p
      rw [List.count_eq_zero.mpr hz, List.replicate_zero, List.append_nil] at f1
      rw [if_neg hz] at f2
      have := ih h (by rw [f2]; exact h1) (by rw [f1]; exact h2) h3.2
      rw [f1, f2] at this
      exact this

/-- An unsupported output of a subgraph moves to the new output. -/
theorem rewireOutputs_moved {count : τ → Option Count} {oldOut newOut : Node} (hne : oldOut ≠ newOut) {g : Graph}
    {outs : List (τ × Wire)} {qs bs : List Nat} {res : Graph × List Tracked}
    (h : rewireOutputs count oldOut newOut g outs qs bs = some res) {ty : τ} {w : Wire} {p : Nat}
    (h1 : g.into (oldOut, p) = [w]) (h2 : g.into (newOut, p) = []) (hd : (outs.map Prod.snd).Nodup)
    (hm : (ty, w) ∈ outs) (hr : regOut count ty = none) :
    res.1.into (oldOut, p) = [] ∧ res.1.into (newOut, p) = [w] := by
  induction outs generalizing g qs bs res with
  | nil => cases hm
  | cons x xs ih =>
    obtain ⟨n1, n2⟩ := List.nodup_cons.mp hd
    rw [rewireOutputs] at h
    rcases List.mem_cons.mp hm with rfl | hm
    · rw [hr] at h
      simp only at h
      obtain ⟨f1, f2⟩ := rewireUses_out hne w g (g.outOf w) p
      rw [count_outOf, h1, h2, List.count_singleton_self, List.replicate_one, List.nil_append] at f1
      rw [if_pos (mem_outOf.mpr (mem_into.mp (by rw [h1]; simp)))] at f2
      have := rewireOutputs_other hne h (w := w) (p := p) (by rw [f2]; simp) (by rw [f1]; simp) n1
      rw [f1, f2] at this
      exact this
    · have hxw : x.2 ≠ w := by
        intro e
        rw [e] at n1
        exact n1 (List.mem_map.mpr ⟨_, hm, rfl⟩)
      cases hc : regOut count x.1 with
      | some c =>
        rw [hc] at h
        simp only at h
        split at h
        · obtain ⟨r', hr', rfl⟩ := Option.map_eq_some_iff.mp h
          refine ih (res := r') hr' ?_ ?_ n2 hm
          · rw [into_disconnectOut, h1]; simp [Ne.symm hxw]
          · rw [into_disconnectOut, h2]; rfl
        · cases h
      | none =>
        rw [hc] at h
        simp only at h
        have hz : (oldOut, p) ∉ g.outOf x.2 := by
          intro hz
          have := mem_into.mpr (mem_outOf.mp hz)
          rw [h1, List.mem_singleton] at this
          exact hxw this
        obtain ⟨f1, f2⟩ := rewireUses_out hne x.2 g (g.outOf x.2) p
        rw [List.count_eq_zero.mpr hz, List.replicate_zero, List.append_nil, h2] at f1
        rw [if_neg hz, h1] at f2
        exact ih h f2 f1 n2 hm

theorem insertExternal_out {count : τ → Option Count} {r : Regions} {g : Graph} {s : Sub τ}
    {fs : List (Option Wire)} {qs bs : List Nat} {res : Graph × List Tracked}
    (h : insertExternal count r g s fs qs bs = some res) (hn : (s.ins.map Prod.snd).Nodup)
    (ho : ∀ x ∈ s.ins, x.2.1 ≠ r.oldOut ∧ x.2.1 ≠ r.newOut) :
    ∃ g1, (∀ n p, n = r.oldOut ∨ n = r.newOut → g1.into (n, p) = g.into (n, p)) ∧
      rewireOutputs count r.oldOut r.newOut g1 s.outs qs bs = some res := by
  rw [insertExternal] at h
  obtain ⟨g1, e1, e2⟩ := Option.bind_eq_some_iff.mp h
  obtain ⟨p1, l1, a1, b1⟩ := rewireInputs_spec e1 hn
  refine ⟨g1, fun n p hnp => ?_, e2⟩
  rw [a1]
  · exact into_links _ _ (by simp) _
  · intro hm
    obtain ⟨x, hx, e⟩ := List.mem_map.mp hm
    have := ho x hx
    rw [e] at this
    rcases hnp with rfl | rfl
    · exact this.1 rfl
    · exact this.2 rfl

theorem runEvents_out {count : τ → Option Count} {r : Regions} (hne : r.oldOut ≠ r.newOut) {g g' : Graph}
    {es : List (Event τ)}
    (h : runEvents count r g es = some g') (hn : ∀ s fs, Inserted es s fs → (s.ins.map Prod.snd).Nodup)
    (ho : ∀ s fs, Inserted es s fs → ∀ x ∈ s.ins, x.2.1 ≠ r.oldOut ∧ x.2.1 ≠ r.newOut) {w : Wire} {p : Nat}
    (hl : ∀ ls, Event.links ls ∈ es → ∀ l ∈ ls, l.dst ≠ (r.oldOut, p) ∧ l.dst ≠ (r.newOut, p))
    (hw : ∀ s fs, Inserted es s fs → w ∉ s.outs.map Prod.snd)
    (h1 : ∀ x ∈ g.into (r.oldOut, p), x = w) (h2 : ∀ x ∈ g.into (r.newOut, p), x = w) :
    g'.into (r.oldOut, p) = g.into (r.oldOut, p) ∧ g'.into (r.newOut, p) = g.into (r.newOut, p) := by
  induction es generalizing g with
  | nil => cases h; exact ⟨rfl, rfl⟩
  | cons e es ih =>
    cases e with
    | links ls =>
      have e1 := into_append g ls (r.oldOut, p) fun l hm => (hl ls List.mem_cons_self l hm).1
      have e2 := into_append g ls (r.newOut, p) fun l hm => (hl ls List.mem_cons_self l hm).2
      have := ih (g := { g with links := g.links ++ ls }) h
        (fun s fs h => hn s fs (inserted_links_iff.mpr h)) (fun s fs h => ho s fs (inserted_links_iff.mpr h))
        (fun ls h => hl ls (List.mem_cons_of_mem _ h)) (fun s fs h => hw s fs (inserted_links_iff.mpr h))
        (by rw [e1]; exact h1) (by rw [e2]; exact h2)
      rw [e1, e2] at this
      exact this
    | insert s fs qs bs =>
      rw [runEvents] at h
      obtain ⟨x, hx, h⟩ := Option.bind_eq_some_iff.mp h
      have hs : Inserted (.insert s fs qs bs :: es) s fs := inserted_cons_iff.mpr (.inl ⟨rfl, rfl⟩)
      obtain ⟨g1, e0, e1⟩ := insertExternal_out hx (hn s fs hs) (ho s fs hs)
      obtain ⟨c1, c2⟩ := rewireOutputs_other hne e1 (w := w) (p := p) (by rw [e0 _ _ (.inl rfl)]; exact h1)
        (by rw [e0 _ _ (.inr rfl)]; exact h2) (hw s fs hs)
      rw [e0 _ _ (.inl rfl)] at c1
      rw [e0 _ _ (.inr rfl)] at c2
      have := ih h (fun s fs h => hn s fs (inserted_cons_insert h)) (fun s fs h => ho s fs (inserted_cons_insert h))
        (fun ls h => hl ls (List.mem_cons_of_mem _ h)) (fun s fs h => hw s fs (inserted_cons_insert h))
        (by rw [c1]; exact h1) (by rw [c2]; exact h2)
      rw [c1, c2] at this
      exact this

theorem Setting.output {o : Ops τ} {count : τ → Option Count} {inside : Node → List Node} {r : Regions}
    {entry : Node} {g g' : Graph} {es : List (Event τ)} (H : Setting o count inside r entry g es)
    (h : reassemble count inside r g es = some g') {s : Sub τ} {fs : List (Option Wire)} (hs : Inserted es s fs)
    {w : Wire} {p : Nat} {ty : τ} (hw : w.1 ∈ s.nodes) (hl : (⟨w, (r.oldOut, p)⟩ : Link) ∈ g.links)
    (ht : (o.outs w.1)[w.2]? = some ty) (hc : ∀ c, count ty = some c → c.params ≠ 0)
    (hd : ∀ ls, Event.links ls ∈ es → ∀ l ∈ ls, l.dst ≠ (r.newOut, p)) :
    g'.into (r.newOut, p) = [w] := by
  rw [reassemble] at h
  obtain ⟨g1, h1, rfl⟩ := Option.map_eq_some_iff.mp h
  have hne : r.oldOut ≠ r.newOut := by
    intro e
    exact H.newOut r.newOut (H.self _) (by rw [← e]; exact H.outputOld)
  obtain ⟨pre, qs, bs, post, he, hdis⟩ := H.split hs
  have hpre : ∀ s' fs', Inserted pre s' fs' → Inserted es s' fs' := fun s' fs' h => by
    rw [he, inserted_append]; exact .inl h
  have hpost : ∀ s' fs', Inserted post s' fs' → Inserted es s' fs' := fun s' fs' h => by
    rw [he, inserted_append, inserted_cons_iff]; exact .inr (.inr h)
  have hio : ∀ s' fs', Inserted es s' fs' → ∀ x ∈ s'.ins, x.2.1 ≠ r.oldOut ∧ x.2.1 ≠ r.newOut := by
    intro s' fs' hs' x hx
    have hm := ((H.mem_ins hs' x).mp hx).1
    have := (H.made s' fs' hs').2.2.2 _ hm
    refine ⟨this.2.2, fun e => ?_⟩
    exact H.newOut x.2.1 (by rw [← e]; exact H.self _) this.1
  have hlinks : ∀ ls, Event.links ls ∈ es → ∀ l ∈ ls, l.dst ≠ (r.oldOut, p) ∧ l.dst ≠ (r.newOut, p) := by
    intro ls hls l hm
    exact ⟨fun e => (H.decoded ls hls l hm).1 (by rw [e]), hd ls hls l hm⟩
  have hothers : ∀ s' fs', Inserted pre s' fs' ∨ Inserted post s' fs' → w ∉ s'.outs.map Prod.snd := by
    intro s' fs' hs' hm
    obtain ⟨x, hx, rfl⟩ := List.mem_map.mp hm
    have hi : Inserted es s' fs' := hs'.elim (hpre s' fs') (hpost s' fs')
    exact hdis s' fs' hs' _ hw ((H.mem_outs hi x).mp hx).1
  have hgo : g.into (r.oldOut, p) = [w] := by
    have m := mem_into.mpr hl
    have l1 := H.single (r.oldOut, p)
    match hL : g.into (r.oldOut, p), m, l1 with
    | [x], m, _ => rw [List.mem_singleton.mp m]
  have hgn : g.into (r.newOut, p) = [] := by
    rw [List.eq_nil_iff_forall_not_mem]
    intro x hx
    exact H.freshOut _ (mem_into.mp hx) rfl
  have hout : (ty, w) ∈ s.outs := by
    refine (H.mem_outs hs _).mpr ⟨hw, (H.sources s fs hs _ hl hw).1, ht, (r.oldOut, p), mem_outOf.mpr hl, ?_, H.outputOld⟩
    intro hm
    exact ((H.made s fs hs).2.2.2 _ hm).2.2 rfl
  have hreg : regOut count ty = none := by
    cases e : regOut count ty with
    | none => rfl
    | some c =>
      obtain ⟨c, c1, c2⟩ := regOut_isSome.mp (by rw [e]; rfl : (regOut count ty).isSome)
      exact absurd c2 (hc c c1)
  have h1' := h1
  rw [he, runEvents_append] at h1
  obtain ⟨ga, ha, h1⟩ := Option.bind_eq_some_iff.mp h1
  rw [runEvents] at h1
  obtain ⟨x2, h2, h3⟩ := Option.bind_eq_some_iff.mp h1
  obtain ⟨a1, a2⟩ := runEvents_out hne ha (fun s fs h => (H.nodup (hpre s fs h)).1) (fun s fs h => hio s fs (hpre s fs h))
    (w := w) (p := p) (fun ls h => hlinks ls (by rw [he]; exact List.mem_append_left _ h))
    (fun s' fs' h => hothers s' fs' (.inl h)) (by rw [hgo]; simp) (by rw [hgn]; simp)
  rw [hgo] at a1
  rw [hgn] at a2
  obtain ⟨gb, b0, b1⟩ := insertExternal_out h2 (H.nodup hs).1 (hio s fs hs)
  obtain ⟨b2, b3⟩ := rewireOutputs_moved hne b1 (p := p) (by rw [b0 _ _ (.inl rfl)]; exact a1)
    (by rw [b0 _ _ (.inr rfl)]; exact a2) (H.nodup hs).2 hout hreg
  obtain ⟨c1, c2⟩ := runEvents_out hne h3 (fun s fs h => (H.nodup (hpost s fs h)).1)
    (fun s fs h => hio s fs (hpost s fs h))
    (w := w) (p := p) (fun ls h => hlinks ls (by rw [he]; simp [h]))
    (fun s' fs' h => hothers s' fs' (.inr h)) (by rw [b2]; simp) (by rw [b3]; simp)
  rw [b3] at c2
  have hwo : w.1 ≠ r.oldIn := ((H.made s fs hs).2.2.2 _ hw).2.1
  have hstn : Stays inside g r.old es r.newOut := fun x hx hpx => absurd hpx (H.newOut x hx)
  have hwin : Within inside s w.1 := ⟨w.1, H.self _, hw⟩
  have hstw : Stays inside g r.old es w.1 := fun x hx hpx => ⟨s, fs, hs, H.within hs hwin hx hpx⟩
  classical
  have hrem := removeOld_into inside r (moveInputs r g1) (r.newOut, p) (fun n => decide (¬ Stays inside g r.old es n))
    (fun n => by rw [decide_eq_true_eq]; exact (H.gone h1' n).symm) (by simp [hstn])
  rw [moveInputs_into, c2] at hrem
  rw [hrem]
  have hz : [w].filter (fun w : Wire => decide (w.1 = r.oldIn)) = [] := by simp [hwo]
  rw [hz]
  simp [hstw]

/-! ### Registers of outputs -/

theorem regOut_eq (count : τ → Option Count) (t : τ) :
    regOut count t = (count t).filter fun c => c.params == 0 := by
  unfold regOut
  cases count t with
  | none => rfl
  | some c => by_cases h : c.params = 0 <;> simp [Option.filter, h]

theorem tracked_spec {count : τ → Option Count} {oldOut newOut : Node} {g : Graph}
    {outs : List (τ × Wire)} {qs bs : List Nat} {res : Graph × List Tracked}
    (h : rewireOutputs count oldOut newOut g outs qs bs = some res) :
    res.2.map (fun k => k.wire) = (outs.filter fun x => ((count x.1).filter fun c => c.params == 0).isSome).map Prod.snd ∧
      res.2.map (fun k => (k.qubits.length, k.bits.length)) = (counts count outs).map (fun c => (c.qubits, c.bits)) ∧
      res.2.flatMap (fun k => k.qubits) = qs.take ((counts count outs).map fun c => c.qubits).sum ∧
      res.2.flatMap (fun k => k.bits) = bs.take ((counts count outs).map fun c => c.bits).sum := by
  induction outs generalizing g qs bs res with
  | nil => rw [rewireOutputs] at h; cases h; simp [counts]
  | cons x xs ih =>
    rw [rewireOutputs] at h
    cases hc : regOut count x.1 with
    | some c =>
      rw [hc] at h
      simp only at h
      split at h
      · next hle =>
        obtain ⟨r', hr, rfl⟩ := Option.map_eq_some_iff.mp h
        obtain ⟨i1, i2, i3, i4⟩ := ih hr
        rw [regOut_eq] at hc
        have e : counts count (x :: xs) = c :: counts count xs := by simp [counts, hc]
        rw [e]
        refine ⟨?_, ?_, ?_, ?_⟩
        · simp only [List.map_cons, List.filter_cons, hc, Option.isSome_some, if_true, i1]
        · simp only [List.map_cons, i2, List.length_take, Nat.min_eq_left hle.1, Nat.min_eq_left hle.2]
        · simp only [List.flatMap_cons, i3, List.map_cons, List.sum_cons, List.take_add]
        · simp only [List.flatMap_cons, i4, List.map_cons, List.sum_cons, List.take_add]
      · cases h
    | none =>
      rw [hc] at h
      simp only at h
      obtain ⟨i1, i2, i3, i4⟩ := ih h
      rw [regOut_eq] at hc
      have e : counts count (x :: xs) = counts count xs := by simp [counts, hc]
      rw [e]
      refine ⟨?_, i2, i3, i4⟩
      simp only [List.filter_cons, hc, Option.isSome_none, Bool.false_eq_true, if_false, i1]

theorem tracked_isSome (count : τ → Option Count) (oldOut newOut : Node) (g : Graph)
    (outs : List (τ × Wire)) (qs bs : List Nat) :
    (rewireOutputs count oldOut newOut g outs qs bs).isSome ↔
      ((counts count outs).map fun c => c.qubits).sum ≤ qs.length ∧
      ((counts count outs).map fun c => c.bits).sum ≤ bs.length := by
  induction outs generalizing g qs bs with
  | nil => simp [rewireOutputs, counts]
  | cons x xs ih =>
    rw [rewireOutputs]
    cases hc : regOut count x.1 with
    | some c =>
      rw [regOut_eq] at hc
      have e : counts count (x :: xs) = c :: counts count xs := by simp [counts, hc]
      simp only [e, List.map_cons, List.sum_cons]
      split
      · next hle =>
        rw [Option.isSome_map, ih, List.length_drop, List.length_drop]
        omega
      · next hle =>
        simp only [Option.isSome_none, Bool.false_eq_true, false_iff]
        omega
    | none =>
      rw [regOut_eq] at hc
      have e : counts count (x :: xs) = counts count xs := by simp [counts, hc]
      simp only [e]
      exact ih _ _ _

/-! ### Tables -/

variable {α : Type}

theorem Table.get_insert (t : Table α) (i j : Id) (a : α) :
    (t.insert i a).get j = if j = i then some a else t.get j := by
  unfold Table.get Table.insert
  by_cases h : i = j
  · subst h; simp
  · have h' : ¬ j = i := fun e => h e.symm
    simp only [List.find?_cons, h, decide_false, h', if_false, List.find?_filter]
    congr 1
    apply congrFun
    apply congrArg
    funext e
    by_cases he : e.1 = j
    · simp [he, h']
    · simp [he]

theorem Table.get_of_mem {t : Table α} (hd : (t.entries.map Prod.fst).Nodup) {i : Id} {a : α}
    (h : (i, a) ∈ t.entries) : t.get i = some a := by
  unfold Table.get
  generalize t.entries = l at hd h
  induction l with
  | nil => cases h
  | cons e l ih =>
    obtain ⟨n1, n2⟩ := List.nodup_cons.mp hd
    rcases List.mem_cons.mp h with rfl | h
    · simp
    · have hne : ¬ e.1 = i := by
        intro e'
        rw [e'] at n1
        exact n1 (List.mem_map_of_mem h)
      rw [List.find?_cons]
      simp only [hne, decide_false]
      exact ih n2 h

theorem foldl_insert_get (t : Table α) (es : List (Id × α)) (hd : (es.map Prod.fst).Nodup) :
    (∀ i a, (i, a) ∈ es → (es.foldl (fun t e => t.insert e.1 e.2) t).get i = some a) ∧
      ∀ i, i ∉ es.map Prod.fst → (es.foldl (fun t e => t.insert e.1 e.2) t).get i = t.get i := by
  induction es generalizing t with
  | nil => exact ⟨fun _ _ h => (List.not_mem_nil h).elim, fun _ _ => rfl⟩
  | cons e es ih =>
    obtain ⟨n1, n2⟩ := List.nodup_cons.mp hd
    obtain ⟨h1, h2⟩ := ih (t.insert e.1 e.2) n2
    refine ⟨fun i a h => ?_, fun i h => ?_⟩
    · rw [List.foldl_cons]
      rcases List.mem_cons.mp h with h | h
      · subst h
        rw [h2 _ n1, Table.get_insert, if_pos rfl]
      · exact h1 i a h
    · simp only [List.map_cons, List.mem_cons, not_or] at h
      rw [List.foldl_cons, h2 i h.2, Table.get_insert, if_neg h.1]

theorem Table.registerAll_spec (t : Table α) (as : List α) (h0 : ∀ e ∈ t.entries, e.1.1 = t.id ∧ e.1.2 < t.next)
    (hd : (t.entries.map Prod.fst).Nodup) :
    (t.registerAll as).1.map Prod.snd = as ∧
      ((t.registerAll as).1.map Prod.fst).Nodup ∧
      (∀ e ∈ (t.registerAll as).1, e.1.1 = t.id ∧ t.next ≤ e.1.2) ∧
      ((t.registerAll as).2.entries.map Prod.fst).Nodup ∧
      (∀ e, e ∈ (t.registerAll as).2.entries ↔ e ∈ t.entries ∨ e ∈ (t.registerAll as).1) := by
  induction as generalizing t with
  | nil => exact ⟨rfl, by simp [registerAll], by simp [registerAll], hd, by simp [registerAll]⟩
  | cons a as ih =>
    have hfilt : t.entries.filter (fun e => decide (e.1 ≠ (t.id, t.next))) = t.entries := by
      rw [List.filter_eq_self]
      intro e he
      have := (h0 e he).2
      simp only [ne_eq, decide_not, Bool.not_eq_true', decide_eq_false_iff_not]
      intro e'
      rw [e'] at this
      exact Nat.lt_irrefl _ this
    have hent : (t.register a).2.entries = ((t.id, t.next), a) :: t.entries := by
      simp only [register, insert]
      rw [hfilt]
    obtain ⟨i1, i2, i3, i4, i5⟩ := ih (t.register a).2 (by
      rw [hent]
      intro e he
      change e.1.1 = t.id ∧ e.1.2 < t.next + 1
      rcases List.mem_cons.mp he with rfl | he
      · exact ⟨rfl, Nat.lt_succ_self _⟩
      · exact ⟨(h0 e he).1, Nat.lt_succ_of_lt (h0 e he).2⟩) (by
      rw [hent, List.map_cons, List.nodup_cons]
      refine ⟨?_, hd⟩
      intro hm
      obtain ⟨e, he, e'⟩ := List.mem_map.mp hm
      have := (h0 e he).2
      rw [e'] at this
      exact Nat.lt_irrefl _ this)
    refine ⟨by rw [registerAll]; simp [i1], ?_, ?_, i4, ?_⟩
    · rw [registerAll]
      simp only [List.map_cons, List.nodup_cons]
      refine ⟨?_, i2⟩
      intro hm
      obtain ⟨e, he, e'⟩ := List.mem_map.mp hm
      have h : t.next + 1 ≤ e.1.2 := (i3 e he).2
      rw [e'] at h
      change t.next + 1 ≤ t.next at h
      omega
    · rw [registerAll]
      intro e he
      rcases List.mem_cons.mp he with rfl | he
      · exact ⟨rfl, Nat.le_refl _⟩
      · obtain ⟨q1, q2⟩ := i3 e he
        change t.next + 1 ≤ _ at q2
        exact ⟨q1, by omega⟩
    · intro e
      rw [registerAll]
      simp only [i5, hent, List.mem_cons]
      constructor
      · rintro ((h | h) | h)
        · exact .inr (.inl h)
        · exact .inl h
        · exact .inr (.inr h)
      · rintro (h | h | h)
        · exact .inl (.inr h)
        · exact .inl (.inl h)
        · exact .inr h

theorem encodeAll_spec (t : Table α) (count : Nat) (rs : List (List α)) :
    (encodeAll t count rs).1.map Prod.snd = rs.flatten ∧
      ((encodeAll t count rs).1.map Prod.fst).Nodup ∧
      (∀ e ∈ (encodeAll t count rs).1, count < e.1.1) ∧
      (∀ e ∈ (encodeAll t count rs).1, (encodeAll t count rs).2.get e.1 = some e.2) ∧
      ∀ i : Id, i.1 ≤ count → (encodeAll t count rs).2.get i = t.get i := by
  induction rs generalizing t count with
  | nil => simp [encodeAll]
  | cons r rs ih =>
    obtain ⟨e1, e2, e3, e4, e5⟩ := Table.registerAll_spec (Table.new (α := α) (count + 1)) r
      (by intro e he; cases he) (by simp [Table.new])
    obtain ⟨i1, i2, i3, i4, i5⟩ := ih (t.merge ((Table.new (count + 1)).registerAll r).2) (count + 1)
    obtain ⟨m1, m2⟩ := foldl_insert_get t ((Table.new (count + 1)).registerAll r).2.entries e4
    rw [encodeAll]
    refine ⟨by simp [e1, i1], ?_, ?_, ?_, ?_⟩
    · simp only [List.map_append]
      refine List.nodup_append.mpr ⟨e2, i2, ?_⟩
      intro a ha b hb e
      subst e
      obtain ⟨x, hx, rfl⟩ := List.mem_map.mp ha
      obtain ⟨y, hy, hxy⟩ := List.mem_map.mp hb
      have h1 := (e3 x hx).1
      have h2 := i3 y hy
      rw [hxy, h1] at h2
      exact Nat.lt_irrefl _ h2
    · intro e he
      rcases List.mem_append.mp he with he | he
      · rw [(e3 e he).1]; exact Nat.lt_succ_self _
      · exact Nat.lt_of_succ_lt (i3 e he)
    · intro e he
      rcases List.mem_append.mp he with he | he
      · rw [i5 e.1 (by rw [(e3 e he).1]; exact Nat.le_refl _)]
        exact m1 e.1 e.2 ((e5 e).mpr (.inr he))
      · exact i4 e he
    · intro i hi
      rw [i5 i (Nat.le_succ_of_le hi)]
      apply m2
      intro hm
      obtain ⟨x, hx, rfl⟩ := List.mem_map.mp hm
      rcases (e5 x).mp hx with hx | hx
      · cases hx
      · have := (e3 x hx).1
        change x.1.1 = count + 1 at this
        omega

end Verif.Opaque
