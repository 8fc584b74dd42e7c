import Verif.Lemmas.RegionWiring
import Verif.Props.Modifier

/-!
# C82: edges of modified regions
-/

namespace Tket.RegionWiring

open Tket.Modifier (Ty Sig Dir Port wireInout)

/-- C82: the edges can be connected if and only if, for each edge from a child of the region, the input is
registered and, unless nothing corresponds to it, the output is registered too, with ports in the other
direction. -/
theorem C82_finishes_iff (r : Region) (dagger : Bool) :
    (∃ l, connectAll r dagger = .ok l) ↔
      ∀ e ∈ r.edges, e.src ∈ r.children →
        ∃ as, r.get dagger e.dst ⟨.inc, e.dport⟩ = some as ∧
          (as ≠ [] → ∃ bs, r.get dagger e.src ⟨.out, e.sport⟩ = some bs ∧
            ∀ a ∈ as, ∀ b ∈ bs, a.port.dir ≠ b.port.dir) := by
  unfold connectAll
  rw [collect_isOk]
  constructor
  · intro h e he hs
    exact (connectEdge_isOk r dagger e).1 (h e (mem_order.2 (List.mem_filter.2 ⟨he, by simpa using hs⟩)))
  · intro h e he
    obtain ⟨h1, h2⟩ := List.mem_filter.1 (mem_order.1 he)
    exact (connectEdge_isOk r dagger e).2 (h e h1 (by simpa using h2))

/-- C82: if the ports of all children correspond faithfully and all edges from children stay in the region,
the new region is the mirror image of the old one: the edges are those of the old region, reversed if they
carry qubits and there is a dagger. -/
theorem C82_mirror_partial (r : Region) (dagger : Bool) (f : Nat → Port → Port) (hn : r.children.Nodup)
    (hf : ∀ n ∈ r.children, Faithful dagger (r.op n) (f n)) (hl : ∀ e ∈ r.inner, e.Local r) :
    ∃ l, connectAll r dagger = .ok l ∧ l.Perm (r.inner.map (image r dagger f)) := by
  refine ⟨_, collect_ok (g := fun e => [image r dagger f e]) (fun e he =>
    connectEdge_faithful hf (hl e (mem_order.1 he))), ?_⟩
  rw [flatMap_singleton_map]
  exact (order_perm hn).map _

/-- C82: then each port of the new region that corresponds to a port has as many edges as that port had from
children of the region: values are neither lost nor used more often. -/
theorem C82_linear_partial (r : Region) (dagger : Bool) (f : Nat → Port → Port) (hn : r.children.Nodup)
    (hf : ∀ n ∈ r.children, Faithful dagger (r.op n) (f n)) (hl : ∀ e ∈ r.inner, e.Local r) (l)
    (h : connectAll r dagger = .ok l) (n : Nat) (hc : n ∈ r.children) (p : Port)
    (hp : ((r.op n).ty p).isSome) :
    l.countP (touches · ⟨n, f n p⟩) = r.inner.countP (·.touches n p) := by
  obtain ⟨l', h', hp'⟩ := C82_mirror_partial r dagger f hn hf hl
  rw [h] at h'
  cases h'
  rw [hp'.countP_eq, List.countP_map]
  exact List.countP_congr fun e he => by
    simp only [Function.comp]
    rw [image_touches hf (hl e he) hc hp]

/-- C82: and if the types are kept by the operations at both ends, each new edge joins ports of the same
type. -/
theorem C82_typed_partial (r : Region) (dagger : Bool) (f : Nat → Port → Port) (hn : r.children.Nodup)
    (hf : ∀ n ∈ r.children, Faithful dagger (r.op n) (f n)) (ht : ∀ n ∈ r.children, TypesKept (r.op n) (f n))
    (hl : ∀ e ∈ r.inner, e.Local r) (l) (h : connectAll r dagger = .ok l) :
    ∀ e ∈ l, e.1.port.dir = .out ∧ e.2.port.dir = .inc ∧
      ∃ t, (r.op e.1.node).newTy e.1.port = some t ∧ (r.op e.2.node).newTy e.2.port = some t := by
  obtain ⟨l', h', hp'⟩ := C82_mirror_partial r dagger f hn hf hl
  rw [h] at h'
  cases h'
  intro e he
  obtain ⟨e, he', rfl⟩ := List.mem_map.1 (hp'.mem_iff.1 he)
  obtain ⟨h1, h2, t, h3, h4⟩ := hl e he'
  have d3 := (hf _ h1).dir _ _ h3
  have d4 := (hf _ h2).dir _ _ h4
  have t3 := ht _ h1 _ _ h3
  have t4 := ht _ h2 _ _ h4
  simp only [image, quantum, h3]
  split_ifs with c
  · rw [if_pos c] at d3 d4
    exact ⟨d4, d3, t, t4, t3⟩
  · rw [if_neg c] at d3 d4
    exact ⟨d3, d4, t, t3, t4⟩

/-- C82: without dagger the new region has no cycles if the old one had none. With dagger this holds if
classical values come from the input or from operations without qubits. -/
theorem C82_acyclic_partial (r : Region) (dagger : Bool) (f : Nat → Port → Port) (hn : r.children.Nodup)
    (hf : ∀ n ∈ r.children, Faithful dagger (r.op n) (f n)) (hl : ∀ e ∈ r.inner, e.Local r)
    (ha : Acyclic r.arrows)
    (hq : dagger = true → ∀ e ∈ r.inner, quantum r e = false → e.src = 0 ∨ ¬ (r.op e.src).hasQ) (l)
    (h : connectAll r dagger = .ok l) : Acyclic (arrows l) := by
  obtain ⟨l', h', hp'⟩ := C82_mirror_partial r dagger f hn hf hl
  rw [h] at h'
  cases h'
  obtain ⟨rank, hr⟩ := ha
  have hr' : ∀ e ∈ r.inner, e.src ≠ 0 → e.dst ≠ 0 → rank e.src < rank e.dst := fun e he h1 h2 =>
    hr (e.src, e.dst) (List.mem_map.2 ⟨e, (List.mem_filter.1 he).1, rfl⟩) h1 h2
  cases dagger with
  | false =>
    refine ⟨rank, ?_⟩
    intro a ha h1 h2
    obtain ⟨x, hx, rfl⟩ := List.mem_map.1 ha
    obtain ⟨e, he', rfl⟩ := List.mem_map.1 (hp'.mem_iff.1 hx)
    simp only [image, Bool.false_and, Bool.false_eq_true, if_false] at h1 h2 ⊢
    exact hr' e he' h1 h2
  | true =>
    obtain ⟨M, hM⟩ := rank_bound rank r.inner
    classical
    refine ⟨fun n => if (r.op n).hasQ then M + 1 + (M - rank n) else rank n, ?_⟩
    intro a ha h1 h2
    obtain ⟨x, hx, rfl⟩ := List.mem_map.1 ha
    obtain ⟨e, he', rfl⟩ := List.mem_map.1 (hp'.mem_iff.1 hx)
    obtain ⟨_, _, t, h3, h4⟩ := hl e he'
    have hb := hM e he'
    cases c : quantum r e with
    | true =>
      have ht : t.isQ = true := by simpa [quantum, h3] using c
      simp only [image, c, Bool.and_self, if_true] at h1 h2 ⊢
      rw [if_pos (hasQ_out h3 ht), if_pos (hasQ_in h4 ht)]
      have := hr' e he' h2 h1
      omega
    | false =>
      simp only [image, c, Bool.and_false, Bool.false_eq_true, if_false] at h1 h2 ⊢
      have := hr' e he' h1 h2
      rw [if_neg ((hq rfl e he' c).resolve_left h1)]
      split_ifs <;> omega

/-- C82 fails of the code: if two operations are joined by a value with qubits and by a classical value, the
dagger of the region has a cycle. -/
theorem C82_cycle_wrong (r : Region) (f : Nat → Port → Port) (hn : r.children.Nodup)
    (hf : ∀ n ∈ r.children, Faithful true (r.op n) (f n)) (hl : ∀ e ∈ r.inner, e.Local r) (e e' : Edge)
    (he : e ∈ r.inner) (he' : e' ∈ r.inner) (hs : e.src = e'.src) (hd : e.dst = e'.dst) (h1 : e.src ≠ 0)
    (h2 : e.dst ≠ 0) (hq : quantum r e = true) (hc : quantum r e' = false) :
    ∃ l, connectAll r true = .ok l ∧ ¬ Acyclic (arrows l) := by
  obtain ⟨l, h, hp⟩ := C82_mirror_partial r true f hn hf hl
  refine ⟨l, h, ?_⟩
  rintro ⟨rank, hr⟩
  have a := hr (e.dst, e.src) (List.mem_map.2 ⟨_, hp.mem_iff.2 (List.mem_map.2 ⟨e, he, rfl⟩), by simp [image, hq]⟩)
    h2 h1
  have b := hr (e'.src, e'.dst)
    (List.mem_map.2 ⟨_, hp.mem_iff.2 (List.mem_map.2 ⟨e', he', rfl⟩), by simp [image, hc]⟩)
    (hs ▸ h1) (hd ▸ h2)
  simp only [hs, hd] at a b
  omega

/-- C82 fails of the code: a value from outside the region, such as a constant next to the function, is not
connected to the operation that uses it. -/
theorem C82_outer_value_wrong (r : Region) (dagger : Bool) (f : Nat → Port → Port) (hn : r.children.Nodup)
    (hf : ∀ n ∈ r.children, Faithful dagger (r.op n) (f n)) (hl : ∀ e ∈ r.inner, e.Local r) (e : Edge)
    (hs : e.src ∉ r.children) (hd : e.dst ∈ r.children)
    (hp : ((r.op e.dst).ty ⟨.inc, e.dport⟩).isSome)
    (hu : ∀ e' ∈ r.edges, e'.touches e.dst ⟨.inc, e.dport⟩ = true → e' = e) :
    ∃ l, connectAll r dagger = .ok l ∧ ∀ x ∈ l, touches x ⟨e.dst, f e.dst ⟨.inc, e.dport⟩⟩ = false := by
  obtain ⟨l, h, _⟩ := C82_mirror_partial r dagger f hn hf hl
  refine ⟨l, h, ?_⟩
  have c := C82_linear_partial r dagger f hn hf hl l h e.dst hd _ hp
  have z : r.inner.countP (·.touches e.dst ⟨.inc, e.dport⟩) = 0 := by
    rw [List.countP_eq_zero]
    intro e' he' ht
    obtain ⟨h1, h2⟩ := List.mem_filter.1 he'
    rw [hu e' h1 ht] at h2
    exact hs (by simpa using h2)
  rw [z, List.countP_eq_zero] at c
  intro x hx
  simpa using c x hx

/-- C82 fails of the code: a value used in a nested region stops the resolution. -/
theorem C82_nested_use_fails (r : Region) (dagger : Bool) (e : Edge) (he : e ∈ r.edges)
    (hs : e.src ∈ r.children) (hd : e.dst ∉ r.children) : ¬ ∃ l, connectAll r dagger = .ok l := by
  rw [C82_finishes_iff]
  intro h
  obtain ⟨as, h, _⟩ := h e he hs
  simp [Region.get, hd] at h

/-! ## Ways to register ports -/

/-- C82: copies are faithful exactly without dagger or without qubits. -/
theorem C82_copy_iff (dagger : Bool) (o : Op) (hk : o.kind = .copy) :
    (∃ f, Faithful dagger o f) ↔ (dagger = true → ¬ o.hasQ) := by
  constructor
  · rintro ⟨f, h⟩ rfl hq
    obtain ⟨p, t, ht, hq⟩ := hasQ_iff.1 hq
    have a := h.reg p t ht
    have b := h.dir p t ht
    simp only [Op.corresp, hk, ht, Option.map_some, Option.some.injEq, List.cons.injEq, and_true] at a
    simp only [hq, Bool.and_self, if_true, ← a] at b
    exact flip_dir_ne p b.symm
  · intro h
    refine ⟨id, ⟨fun p t ht => by simp [Op.corresp, hk, ht], fun p t ht => ?_, fun p q _ _ h => h⟩⟩
    cases dagger with
    | false => rfl
    | true =>
      have : t.isQ = false := by
        cases c : t.isQ with
        | false => rfl
        | true => exact absurd (hasQ_iff.2 ⟨p, t, ht, c⟩) (h rfl)
      simp [this]

/-- C82: reversed operations are faithful exactly if there is a dagger and all ports have qubits, or if
there are no ports. -/
theorem C82_reverse_iff (dagger : Bool) (o : Op) (hk : o.kind = .reverse) :
    (∃ f, Faithful dagger o f) ↔ ∀ t, t ∈ o.sig.input ∨ t ∈ o.sig.output → dagger = true ∧ t.isQ = true := by
  constructor
  · rintro ⟨f, h⟩ t ht
    have : ∃ p, o.ty p = some t := by
      rcases ht with ht | ht
      · obtain ⟨i, hi⟩ := List.getElem?_of_mem ht; exact ⟨⟨.inc, i⟩, hi⟩
      · obtain ⟨i, hi⟩ := List.getElem?_of_mem ht; exact ⟨⟨.out, i⟩, hi⟩
    obtain ⟨p, hp⟩ := this
    have a := h.reg p t hp
    have b := h.dir p t hp
    simp only [Op.corresp, hk, hp, Option.map_some, Option.some.injEq, List.cons.injEq, and_true] at a
    rw [← a] at b
    by_cases c : (dagger && t.isQ) = true
    · simpa using c
    · rw [if_neg c] at b
      exact absurd b (flip_dir_ne p)
  · intro h
    refine ⟨flip, ⟨fun p t ht => by simp [Op.corresp, hk, ht], fun p t ht => ?_, fun p q _ _ h => ?_⟩⟩
    · have : dagger = true ∧ t.isQ = true := by
        obtain ⟨d, i⟩ := p
        cases d
        · exact h t (Or.inl (List.mem_of_getElem? ht))
        · exact h t (Or.inr (List.mem_of_getElem? ht))
      simp [this.1, this.2]
    · rw [← flip_flip p, h, flip_flip]

/-- C82: gates are faithful if they have as many outputs as qubits among the inputs, which come first. -/
theorem C82_gate (dagger : Bool) (nq : Nat) (rest : List Ty) (hr : ∀ t ∈ rest, t.isQ = false) (o : Op)
    (hk : o.kind = .gate) (hs : o.sig = ⟨List.replicate nq .qubit ++ rest, List.replicate nq .qubit⟩)
    (hnew : o.new = o.sig) :
    ∃ f, Faithful dagger o f ∧ TypesKept o f := by
  have hin : ∀ i t, o.ty ⟨.inc, i⟩ = some t → (i < nq ∧ t = .qubit) ∨ (nq ≤ i ∧ t.isQ = false) := by
    intro i t h
    simp only [Op.ty, hs] at h
    by_cases c : i < nq
    · rw [List.getElem?_append_left (by simpa using c), List.getElem?_replicate, if_pos c] at h
      cases h; exact Or.inl ⟨c, rfl⟩
    · rw [List.getElem?_append_right (by simpa using c)] at h
      exact Or.inr ⟨by omega, hr t (List.mem_of_getElem? h)⟩
  have hout : ∀ i t, o.ty ⟨.out, i⟩ = some t → i < nq ∧ t = .qubit := by
    intro i t h
    simp only [Op.ty, hs, List.getElem?_replicate] at h
    split_ifs at h with c
    cases h; exact ⟨c, rfl⟩
  have hq : ∀ p t, o.ty p = some t → (t.isQ = true ↔ p.idx < nq) := by
    rintro ⟨d, i⟩ t h
    cases d
    · rcases hin i t h with ⟨a, rfl⟩ | ⟨a, b⟩
      · simpa [Ty.isQ] using a
      · simp [b]; omega
    · obtain ⟨a, rfl⟩ := hout i t h
      simpa [Ty.isQ] using a
  refine ⟨fun p => if dagger && decide (p.idx < nq) then flip p else p, ⟨fun p t ht => ?_, fun p t ht => ?_, ?_⟩, ?_⟩
  · simp only [Op.corresp, hk, ht, Option.map_some]
    have := hq p t ht
    rw [show t.isQ = decide (p.idx < nq) from by rw [Bool.eq_iff_iff]; simpa using this]
  · have := hq p t ht
    rw [show t.isQ = decide (p.idx < nq) from by rw [Bool.eq_iff_iff]; simpa using this]
    split_ifs <;> rfl
  · intro p q _ _ h
    split_ifs at h with a b b
    · rw [← flip_flip p, h, flip_flip]
    · rw [← h] at b; exact absurd a b
    · rw [h] at a; exact absurd b a
    · exact h
  · rintro p t ht
    have := hq p t ht
    dsimp only
    split_ifs with c
    · obtain ⟨d, i⟩ := p
      simp only [Bool.and_eq_true, decide_eq_true_eq] at c
      cases d
      · rcases hin i t ht with ⟨a, rfl⟩ | ⟨a, b⟩
        · simp [Op.newTy, hnew, hs, flip, a]
        · omega
      · obtain ⟨a, rfl⟩ := hout i t ht
        simp only [Op.newTy, hnew, hs, flip]
        rw [List.getElem?_append_left (by simpa using a), List.getElem?_replicate, if_pos a]
    · simp only [Op.newTy, hnew]; exact ht

/-- C82: nodes whose ports are registered by `wire_node_inout` with their own signature are faithful. -/
theorem C82_wires (dagger : Bool) (o : Op) (k : Nat) (hk : o.kind = .wires o.sig 0 0 k) :
    ∃ f, Faithful dagger o f := by
  obtain ⟨m, hm, hkeys, hnd, hnv, hdir⟩ := Tket.Modifier.C42_rewiring dagger o.sig 0 0 k
  have hty : ∀ p, Tket.Modifier.portTy o.sig 0 0 p = o.ty p := by
    rintro ⟨d, i⟩; cases d <;> simp [Tket.Modifier.portTy, Op.ty]
  simp only [hty] at hkeys hdir
  let g : Port → Option (Port × Port) := fun p => m.find? (fun e => e.1 = p)
  have hg : ∀ p, (o.ty p).isSome → ∃ e, g p = some e ∧ e ∈ m ∧ e.1 = p := by
    intro p hp
    obtain ⟨e, he, rfl⟩ := List.mem_map.1 ((hkeys p).2 hp)
    cases h : g e.1 with
    | none =>
      have := (List.find?_eq_none.1 h) e he
      simp at this
    | some e' =>
      exact ⟨e', rfl, List.mem_of_find?_eq_some h, by simpa using List.find?_some h⟩
  refine ⟨fun p => ((g p).map Prod.snd).getD p, ⟨fun p t ht => ?_, fun p t ht => ?_, fun p q hp hq h => ?_⟩⟩
  · obtain ⟨e, h1, _, _⟩ := hg p (by rw [ht]; rfl)
    simp only [Op.corresp, hk, hm]
    rw [show m.find? (fun e => e.1 = p) = some e from h1]
    simp [h1]
  · obtain ⟨e, h1, h2, h3⟩ := hg p (by rw [ht]; rfl)
    have := hdir e h2 t (by rw [h3, ht])
    simp only [h1, Option.map_some, Option.getD_some, this, h3]
    split_ifs
    · obtain ⟨d, i⟩ := p; cases d <;> rfl
    · rfl
  · obtain ⟨e, h1, h2, h3⟩ := hg p hp
    obtain ⟨e', h1', h2', h3'⟩ := hg q hq
    simp only [h1, h1', Option.map_some, Option.getD_some] at h
    have := List.inj_on_of_nodup_map hnv h2 h2' h
    rw [← h3, ← h3', this]

/-- C82 fails of the code: under dagger a value with qubits that goes between an operation that is copied,
such as a tag, and an operation that is not, stops the resolution. -/
theorem C82_copy_fails (r : Region) (e : Edge) (he : e ∈ r.inner) (hl : e.Local r) (hq : quantum r e = true)
    (h : ((r.op e.src).kind = .copy ∧ ∃ f, Faithful true (r.op e.dst) f) ∨
      ((r.op e.dst).kind = .copy ∧ ∃ f, Faithful true (r.op e.src) f)) :
    ¬ ∃ l, connectAll r true = .ok l := by
  obtain ⟨h1, h2, t, h3, h4⟩ := hl
  have ht : t.isQ = true := by simpa [quantum, h3] using hq
  rw [C82_finishes_iff]
  intro hh
  obtain ⟨as, ha, hb⟩ := hh e (List.mem_filter.1 he).1 h1
  rcases h with ⟨hk, f, hf⟩ | ⟨hk, f, hf⟩
  · rw [get_faithful hf h2 h4] at ha
    cases ha
    obtain ⟨bs, hb, hd⟩ := hb (by simp)
    simp only [Region.get, h1, if_true, Op.corresp, hk, h3, Option.map_some, List.map_cons, List.map_nil,
      Option.some.injEq] at hb
    subst hb
    have := hd _ (List.mem_cons_self ..) _ (List.mem_cons_self ..)
    simp only [hf.dir _ _ h4, ht, Bool.and_self, if_true] at this
    simp [flip] at this
  · simp only [Region.get, h2, if_true, Op.corresp, hk, h4, Option.map_some, List.map_cons, List.map_nil,
      Option.some.injEq] at ha
    subst ha
    obtain ⟨bs, hb, hd⟩ := hb (by simp)
    rw [get_faithful hf h1 h3] at hb
    cases hb
    have := hd _ (List.mem_cons_self ..) _ (List.mem_cons_self ..)
    simp only [hf.dir _ _ h3, ht, Bool.and_self, if_true] at this
    simp [flip] at this

/-! ## Array operations -/

/-- C82: building and taking apart arrays of qubits is reversed correctly, and copied correctly without
dagger. -/
theorem C82_arrays (dagger : Bool) (arr elem int res : Ty) (n : Nat) (ha : arr.isQ = true)
    (he : elem.isQ = true) (d : ArrayDef) (hd : d = .newArray ∨ d = .unpack) :
    ∃ o f, arrayOp dagger arr elem int res n d = some o ∧ Faithful dagger o f ∧ TypesKept o f := by
  cases dagger with
  | false =>
    refine ⟨_, id, rfl, ⟨fun p t ht => by simp [Op.corresp, ht], fun p t ht => rfl, fun p q _ _ h => h⟩, fun p t ht => ht⟩
  | true =>
    have key : ∀ p t, (Op.ty ⟨.reverse, d.sig arr elem int res n, d.sig arr elem int res n⟩ p) = some t →
        t.isQ = true := by
      rintro ⟨e, i⟩ t h
      have : t ∈ [arr] ∨ t ∈ List.replicate n elem := by
        rcases hd with rfl | rfl <;> cases e
        · exact Or.inr (List.mem_of_getElem? h)
        · exact Or.inl (List.mem_of_getElem? h)
        · exact Or.inl (List.mem_of_getElem? h)
        · exact Or.inr (List.mem_of_getElem? h)
      rcases this with h | h
      · rw [List.mem_singleton.1 h]; exact ha
      · rw [List.eq_of_mem_replicate h]; exact he
    have tk : ∀ o : Op, o.kind = .reverse → o.sig = d.sig arr elem int res n → o.new = ⟨o.sig.output, o.sig.input⟩ →
        Faithful true o flip ∧ TypesKept o flip := by
      rintro ⟨k, s, w⟩ h1 h2 h3
      dsimp only at h1 h2 h3
      subst h1 h2 h3
      refine ⟨⟨fun p t ht => by simp [Op.corresp, ht], fun p t ht => ?_, fun p q _ _ h => ?_⟩, ?_⟩
      · simp [key p t ht]
      · rw [← flip_flip p, h, flip_flip]
      · rintro ⟨e, i⟩ t ht
        cases e <;> exact ht
    rcases hd with rfl | rfl
    · exact ⟨_, flip, rfl, tk _ rfl rfl rfl⟩
    · exact ⟨_, flip, rfl, tk _ rfl rfl rfl⟩

/-- C82 fails of the code: under dagger, arrays of classical values are reversed as well, although the values
around them are not. -/
theorem C82_classical_array_wrong (arr elem int res : Ty) (n : Nat) (ha : arr.isQ = false) (d : ArrayDef)
    (hd : d = .newArray ∨ d = .unpack) :
    ∃ o, arrayOp true arr elem int res n d = some o ∧ ¬ ∃ f, Faithful true o f := by
  rcases hd with rfl | rfl
  all_goals
    refine ⟨_, rfl, ?_⟩
    rw [C82_reverse_iff _ _ rfl]
    intro h
    have := (h arr (by simp [ArrayDef.sig])).2
    rw [ha] at this
    cases this

/-- C82 fails of the code: under dagger, swapping elements of an array is reversed by the same operation, so
that the indices, which are classical, become outputs that do not exist. -/
theorem C82_array_swap_wrong (arr elem int res : Ty) (n : Nat) (hi : int.isQ = false) :
    ∃ o, arrayOp true arr elem int res n .swap = some o ∧ (¬ ∃ f, Faithful true o f) ∧
      ∃ p q, o.ty p = some int ∧ o.corresp true p = some [q] ∧ o.newTy q = none := by
  refine ⟨_, rfl, ?_, ⟨.inc, 1⟩, ⟨.out, 1⟩, rfl, rfl, rfl⟩
  rw [C82_reverse_iff _ _ rfl]
  intro h
  have := (h int (by simp [ArrayDef.sig])).2
  rw [hi] at this
  cases this

/-! ## Functions that are loaded -/

/-- C82: a loaded function that is only called is no obstacle; any other use that remains stops the
resolution. -/
theorem C82_loaded_function (r : Region) (dagger : Bool) (e : Edge) (he : e ∈ r.edges)
    (hs : e.src ∈ r.children) (hk : (r.op e.src).kind = .nothing) :
    (∃ l, connectAll r dagger = .ok l) → r.get dagger e.dst ⟨.inc, e.dport⟩ = some [] := by
  rw [C82_finishes_iff]
  intro h
  obtain ⟨as, h1, h2⟩ := h e he hs
  rw [h1]
  by_cases c : as = []
  · rw [c]
  · obtain ⟨bs, h3, _⟩ := h2 c
    simp [Region.get, Op.corresp, hk] at h3

/-! ## A region with a cycle -/

/-- A nested region that passes a qubit and a classical value. -/
def both : Op :=
  ⟨.wires ⟨[.qubit, .other false 0], [.qubit, .other false 0]⟩ 0 0 0,
    ⟨[.qubit, .other false 0], [.qubit, .other false 0]⟩, ⟨[.qubit, .other false 0], [.qubit, .other false 0]⟩⟩

/-- Two such regions one after the other. -/
def twoRegions : Region :=
  ⟨[0, 1, 2], fun _ => both,
    [⟨0, 0, 1, 0⟩, ⟨0, 1, 1, 1⟩, ⟨1, 0, 2, 0⟩, ⟨1, 1, 2, 1⟩, ⟨2, 0, 0, 0⟩, ⟨2, 1, 0, 1⟩]⟩

theorem twoRegions_local : ∀ e ∈ twoRegions.inner, e.Local twoRegions := by
  intro e he
  simp only [Region.inner, twoRegions, List.mem_filter, List.mem_cons, List.not_mem_nil, or_false] at he
  obtain ⟨he, _⟩ := he
  rcases he with rfl | rfl | rfl | rfl | rfl | rfl <;>
    exact ⟨by decide, by decide, _, rfl, rfl⟩

/-- C82 fails of the code: two nested regions one after the other that pass a qubit and a classical value. -/
theorem C82_two_regions_wrong :
    Acyclic twoRegions.arrows ∧ ∃ l, connectAll twoRegions true = .ok l ∧ ¬ Acyclic (arrows l) := by
  refine ⟨⟨id, by decide⟩, ?_⟩
  obtain ⟨f, hf⟩ := C82_wires true both 0 rfl
  exact C82_cycle_wrong twoRegions (fun _ => f) (by decide) (fun _ _ => hf) twoRegions_local ⟨1, 0, 2, 0⟩
    ⟨1, 1, 2, 1⟩ (by decide) (by decide) rfl rfl (by decide) (by decide) rfl rfl

/-! ## The hypotheses can be met -/

/-- A rotation whose angle is computed from an input, followed by a controlled gate. -/
def sample : Region where
  children := [0, 1, 2, 3]
  op n :=
    match n with
    | 0 => ⟨.wires ⟨[.qubit, .qubit], [.qubit, .qubit, .other false 0]⟩ 0 0 1,
        ⟨[.qubit, .qubit], [.qubit, .qubit, .other false 0]⟩, ⟨[], []⟩⟩
    | 1 => ⟨.copy, ⟨[.other false 0], [.other false 1]⟩, ⟨[.other false 0], [.other false 1]⟩⟩
    | 2 => ⟨.gate, ⟨[.qubit, .other false 1], [.qubit]⟩, ⟨[.qubit, .other false 1], [.qubit]⟩⟩
    | _ => ⟨.gate, ⟨[.qubit, .qubit], [.qubit, .qubit]⟩, ⟨[.qubit, .qubit], [.qubit, .qubit]⟩⟩
  edges := [⟨0, 0, 2, 0⟩, ⟨0, 1, 3, 1⟩, ⟨0, 2, 1, 0⟩, ⟨1, 0, 2, 1⟩, ⟨2, 0, 3, 0⟩, ⟨3, 0, 0, 0⟩, ⟨3, 1, 0, 1⟩]

theorem sample_faithful (dagger : Bool) : ∃ f : Nat → Port → Port, ∀ n ∈ sample.children, Faithful dagger (sample.op n) (f n) := by
  have h : ∀ n, ∃ f : Port → Port, Faithful dagger (sample.op n) f := by
    intro n
    match n with
    | 0 => exact C82_wires dagger _ 1 rfl
    | 1 => exact (C82_copy_iff dagger _ rfl).2 (fun _ hq => by
        rcases hq with ⟨t, h, ht⟩ | ⟨t, h, ht⟩ <;> · rw [List.mem_singleton.1 h] at ht; cases ht)
    | 2 => exact (C82_gate dagger 1 [.other false 1] (by decide) _ rfl rfl rfl).imp fun _ h => h.1
    | n + 3 => exact (C82_gate dagger 2 [] (by decide) _ rfl rfl rfl).imp fun _ h => h.1
  exact ⟨fun n => (h n).choose, fun n _ => (h n).choose_spec⟩

theorem sample_local : ∀ e ∈ sample.inner, e.Local sample := by
  intro e he
  simp only [Region.inner, sample, List.mem_filter, List.mem_cons, List.not_mem_nil, or_false] at he
  obtain ⟨he, _⟩ := he
  rcases he with rfl | rfl | rfl | rfl | rfl | rfl | rfl <;>
    exact ⟨by decide, by decide, _, rfl, rfl⟩

example : connectAll sample true = .ok [
    (⟨2, ⟨.out, 0⟩⟩, ⟨0, ⟨.inc, 1⟩⟩), (⟨3, ⟨.out, 1⟩⟩, ⟨0, ⟨.inc, 2⟩⟩), (⟨0, ⟨.out, 3⟩⟩, ⟨1, ⟨.inc, 0⟩⟩),
    (⟨1, ⟨.out, 0⟩⟩, ⟨2, ⟨.inc, 1⟩⟩), (⟨3, ⟨.out, 0⟩⟩, ⟨2, ⟨.inc, 0⟩⟩), (⟨0, ⟨.out, 1⟩⟩, ⟨3, ⟨.inc, 0⟩⟩),
    (⟨0, ⟨.out, 2⟩⟩, ⟨3, ⟨.inc, 1⟩⟩)] := rfl

example : ∃ l, connectAll sample true = .ok l ∧ Acyclic (arrows l) := by
  obtain ⟨f, hf⟩ := sample_faithful true
  obtain ⟨l, h, _⟩ := C82_mirror_partial sample true f (by decide) hf sample_local
  refine ⟨l, h, C82_acyclic_partial sample true f (by decide) hf sample_local ⟨id, by decide⟩ (fun _ e he hq => ?_) l h⟩
  simp only [Region.inner, sample, List.mem_filter, List.mem_cons, List.not_mem_nil, or_false] at he
  obtain ⟨he, _⟩ := he
  rcases he with rfl | rfl | rfl | rfl | rfl | rfl | rfl
  · exact Or.inl rfl
  · exact Or.inl rfl
  · exact Or.inl rfl
  · refine Or.inr fun hq => ?_
    rcases hq with ⟨t, h, ht⟩ | ⟨t, h, ht⟩ <;> · rw [List.mem_singleton.1 h] at ht; cases ht
  all_goals cases hq

example : ∀ l, connectAll sample true = .ok l →
    l.countP (touches · ⟨2, ⟨.inc, 0⟩⟩) = 1 := by
  intro l h; cases h; rfl

/-- The sample with a module-level constant as the angle. -/
def outer : Region := { sample with edges := ⟨7, 0, 2, 1⟩ :: sample.edges.filter (fun e => decide (e.src ≠ 1)) }

example : ∃ l, connectAll outer true = .ok l ∧ l.all (fun e => !touches e ⟨2, ⟨.inc, 1⟩⟩) = true := ⟨_, rfl, rfl⟩

/-- A value used in a nested region. -/
example : connectAll { sample with edges := ⟨1, 0, 9, 0⟩ :: sample.edges } false =
    .error (.noCorrespondence 9 ⟨.inc, 0⟩) := rfl

/-- A tag with a qubit between gates. -/
example : connectAll ⟨[0, 1, 2], fun n => if n = 1 then ⟨.copy, ⟨[.qubit], [.other true 0]⟩, ⟨[.qubit], [.other true 0]⟩⟩
      else both, [⟨0, 0, 1, 0⟩]⟩ true = .error .sameDirection := rfl

end Tket.RegionWiring
