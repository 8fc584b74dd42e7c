import Verif.Lemmas.DecoderRun

/-!
# Every qubit wire of a decoded region is used exactly once
-/

namespace Verif.Decoder

variable {T R L : Type} [DecidableEq T] [DecidableEq R]

/-- The wire that currently carries a qubit register. -/
def CurOf (s : St T R L) (r : R) (w : Wire) : Prop :=
  ∃ id, lookupLatest r s.q.latest = some id ∧ s.q.wires id = [w]

/-- Uses of qubit wires: none for the current wire of a register outside `P` and for the wires in
`F`, one for all others. -/
structure Lin (c : Cfg T R) (s : St T R L) (P : List R) (F : Wire → Prop) : Prop where
  zero : ∀ w, typeOf s.nodes w = some c.qb → ((∃ r, r ∉ P ∧ CurOf s r w) ∨ F w) →
    uses s.nodes w = 0
  one : ∀ w, typeOf s.nodes w = some c.qb → ¬ ((∃ r, r ∉ P ∧ CurOf s r w) ∨ F w) →
    uses s.nodes w = 1
  old : ∀ w, s.nodes.length ≤ w.node → uses s.nodes w = 0
  ty : ∀ w d, s.wires w = some d → (d.qs ≠ [] → typeOf s.nodes w = some c.qb) ∧
    (d.bs ≠ [] → typeOf s.nodes w ≠ some c.qb)
  live : ∀ r id, lookupLatest r s.q.latest = some id →
    (s.q.elems[id]?).map Elem.outdated = some false

/-! ### Elementary facts -/

section
omit [DecidableEq T] [DecidableEq R]

theorem typeOf_lt {ns : List (Node T L)} {w : Wire} {t : T} (h : typeOf ns w = some t) :
    w.node < ns.length := by
  induction ns with
  | nil => simp [typeOf] at h
  | cons n ns ih =>
    rw [typeOf] at h
    split at h
    · next he => simp [he]
    · have := ih h
      simp only [List.length_cons]
      omega

theorem typeOf_cons (n : Node T L) (ns : List (Node T L)) {w : Wire} (h : w.node < ns.length) :
    typeOf (n :: ns) w = typeOf ns w := by
  rw [typeOf, if_neg (by omega)]

theorem typeOf_head (n : Node T L) (ns : List (Node T L)) (p : Nat) :
    typeOf (n :: ns) ⟨ns.length, p⟩ = n.sigOut[p]? := by
  rw [typeOf, if_pos rfl]

theorem uses_cons (n : Node T L) (ns : List (Node T L)) (w : Wire) :
    uses (n :: ns) w = n.ins.count (.val w) + uses ns w := by
  unfold uses
  rw [List.map_cons, List.flatten_cons, List.count_append]

theorem count_srcs (ws : List Wire) (ps : List Nat) (w : Wire) :
    (ws.map Src.val ++ ps.map Src.par).count (.val w) = ws.count w := by
  rw [List.count_append]
  have h1 : (ws.map Src.val).count (.val w) = ws.count w := by
    induction ws with
    | nil => rfl
    | cons x xs ih =>
      rw [List.map_cons, List.count_cons, List.count_cons, ih]
      simp
  have h2 : (ps.map Src.par).count (.val w) = 0 := by
    rw [List.count_eq_zero]
    simp
  rw [h1, h2]
  rfl

end

section
omit [DecidableEq T]

theorem CurOf.unique {s : St T R L} {r : R} {w w' : Wire} (h : CurOf s r w) (h' : CurOf s r w') :
    w = w' := by
  obtain ⟨id, h1, h2⟩ := h
  obtain ⟨id', h1', h2'⟩ := h'
  rw [h1] at h1'
  injection h1' with h1'
  subst h1'
  rw [h2] at h2'
  simpa using h2'

theorem CurOf.data {c : Cfg T R} {s : St T R L} {m : Regs R L} (H : Inv c s m) {r : R} {w : Wire}
    (h : CurOf s r w) : ∃ id, lookupLatest r s.q.latest = some id ∧ s.q.wires id = [w] ∧
      s.wires w = some ⟨c.qb, [id], []⟩ := by
  obtain ⟨id, h1, h2⟩ := h
  obtain ⟨_, ⟨h3, _⟩ | ⟨w', ty, h3, h4, h5, _⟩⟩ := H.q.holds r id h1
  · rw [h3] at h2; simp at h2
  · rw [h3] at h2
    simp only [List.cons.injEq, and_true] at h2
    subst h2 h5
    exact ⟨id, h1, h3, h4⟩

theorem CurOf.inj {c : Cfg T R} {s : St T R L} {m : Regs R L} (H : Inv c s m) {r r' : R} {w : Wire}
    (h : CurOf s r w) (h' : CurOf s r' w) : r = r' := by
  obtain ⟨id, h1, _, h3⟩ := h.data H
  obtain ⟨id', h1', _, h3'⟩ := h'.data H
  rw [h3] at h3'
  simp only [Option.some.injEq, WireData.mk.injEq, List.cons.injEq, and_true, true_and] at h3'
  subst h3'
  have := H.q.reg r id h1
  rw [H.q.reg r' id h1'] at this
  exact (Option.some.inj this).symm

theorem next_live {h : Half R} {r : R} {ws : List Wire}
    (hl : ∀ r id, lookupLatest r h.latest = some id → (h.elems[id]?).map Elem.outdated = some false)
    (hr : ∀ r id, lookupLatest r h.latest = some id → h.regOf id = some r) (r' : R) (id : Nat)
    (hlook : lookupLatest r' (h.next r ws).latest = some id) :
    ((h.next r ws).elems[id]?).map Elem.outdated = some false := by
  rw [next_latest] at hlook
  have hlen : ∀ p, lookupLatest r h.latest = some p → p < h.elems.length := by
    intro p hp
    have := hl r p hp
    by_contra hge
    rw [List.getElem?_eq_none (by omega)] at this
    simp at this
  by_cases hrr : r' = r
  · rw [if_pos hrr] at hlook
    injection hlook with hlook
    subst hlook
    unfold Half.next
    cases hp : lookupLatest r h.latest with
    | none => simp
    | some p =>
      have := hlen p hp
      dsimp only
      rw [List.getElem?_modify]
      have hne : p ≠ h.elems.length := by omega
      simp [hne]
  · rw [if_neg hrr] at hlook
    have h1 := hl r' id hlook
    have h2 := hr r' id hlook
    have hid : id < h.elems.length := by
      by_contra hge
      rw [List.getElem?_eq_none (by omega)] at h1
      simp at h1
    unfold Half.next
    cases hp : lookupLatest r h.latest with
    | none =>
      dsimp only
      rw [List.getElem?_append_left hid]
      exact h1
    | some p =>
      have : p ≠ id := by
        rintro rfl
        have h3 := hr r p hp
        rw [h2] at h3
        exact hrr (Option.some.inj h3)
      dsimp only
      rw [List.getElem?_modify, List.getElem?_append_left hid]
      simpa [this] using h1

end

/-! ### Steps -/

/-- Adding a node that uses the current wires of the registers in `Q` once, and no other qubit
wire. -/
theorem Lin.node {c : Cfg T R} {s : St T R L} {m : Regs R L} {P : List R} (H : Inv c s m)
    (h : Lin c s P fun _ => False) (n : Node T L) (Q : List R) (hdis : ∀ r ∈ Q, r ∉ P)
    (hins : ∀ w, Src.val w ∈ n.ins → w.node < s.nodes.length)
    (h1 : ∀ w, typeOf s.nodes w = some c.qb → (∃ r ∈ Q, CurOf s r w) → n.ins.count (.val w) = 1)
    (h0 : ∀ w, typeOf s.nodes w = some c.qb → ¬ (∃ r ∈ Q, CurOf s r w) → n.ins.count (.val w) = 0) :
    Lin c { s with nodes := n :: s.nodes } (Q ++ P) fun w => w.node = s.nodes.length := by
  have hcur : ∀ r w, CurOf { s with nodes := n :: s.nodes } r w ↔ CurOf s r w := fun r w => Iff.rfl
  have hnew : ∀ w, s.nodes.length ≤ w.node → uses (n :: s.nodes) w = 0 := by
    intro w hw
    rw [uses_cons, h.old w hw, List.count_eq_zero.mpr]
    intro hm
    have := hins w hm
    omega
  refine ⟨?_, ?_, ?_, ?_, h.live⟩
  · intro w ht hw
    rcases hw with ⟨r, hr, hc⟩ | hw
    · have hlt : w.node < s.nodes.length := by
        obtain ⟨_, _, _, hd⟩ := CurOf.data H ((hcur r w).mp hc)
        exact H.fresh w (by rw [hd]; simp)
      dsimp only at ht
      rw [typeOf_cons n s.nodes hlt] at ht
      rw [List.mem_append, not_or] at hr
      dsimp only
      rw [uses_cons, h.zero w ht (.inl ⟨r, hr.2, (hcur r w).mp hc⟩), h0 w ht]
      rintro ⟨r', hr', hc'⟩
      have := CurOf.inj H hc' ((hcur r w).mp hc)
      exact hr.1 (this ▸ hr')
    · exact hnew w (Nat.le_of_eq hw.symm)
  · intro w ht hw
    rw [not_or] at hw
    have hlt := typeOf_lt ht
    simp only [List.length_cons] at hlt
    have hlt : w.node < s.nodes.length := by
      have := hw.2
      omega
    dsimp only at ht ⊢
    rw [typeOf_cons n s.nodes hlt] at ht
    rw [uses_cons]
    by_cases hq : ∃ r ∈ Q, CurOf s r w
    · rw [h1 w ht hq]
      obtain ⟨r, hr, hc⟩ := hq
      rw [h.zero w ht (.inl ⟨r, hdis r hr, hc⟩)]
    · rw [h0 w ht hq, h.one w ht]
      rintro (⟨r, hr, hc⟩ | hf)
      · refine hw.1 ⟨r, ?_, hc⟩
        rw [List.mem_append, not_or]
        exact ⟨fun hrq => hq ⟨r, hrq, hc⟩, hr⟩
      · exact hf
  · intro w hw
    simp only [List.length_cons] at hw
    exact hnew w (by omega)
  · intro w d hd
    have hlt := H.fresh w (by rw [show s.wires w = some d from hd]; simp)
    dsimp only
    rw [typeOf_cons n s.nodes hlt]
    exact h.ty w d hd

/-- Forgetting wires in `F` that are not qubit wires. -/
theorem Lin.weaken {c : Cfg T R} {s : St T R L} {P : List R} {F F' : Wire → Prop} (h : Lin c s P F)
    (hF : ∀ w, typeOf s.nodes w = some c.qb → (F w ↔ F' w)) : Lin c s P F' := by
  refine ⟨fun w ht hw => h.zero w ht ?_, fun w ht hw => h.one w ht ?_, h.old, h.ty, h.live⟩
  · rcases hw with hw | hw
    · exact .inl hw
    · exact .inr ((hF w ht).mpr hw)
  · rintro (hw' | hw')
    · exact hw (.inl hw')
    · exact hw (.inr ((hF w ht).mp hw'))

/-- A register gets a new wire. -/
theorem Lin.newQ {c : Cfg T R} {s : St T R L} {m : Regs R L} {P P' : List R} {F : Wire → Prop}
    (H : Inv c s m) (h : Lin c s P F) {w : Wire} (hty : typeOf s.nodes w = some c.qb)
    (hF : F w) (r : R) (hr : ∀ w', CurOf s r w' → r ∈ P) (hP : ∀ r', r' ∉ P' ↔ r' = r ∨ r' ∉ P) :
    Lin c (newQ s w c.qb r) P' fun w' => F w' ∧ w' ≠ w := by
  have hcur : ∀ r' w', CurOf (Decoder.newQ s w c.qb r) r' w' ↔
      if r' = r then w' = w else CurOf s r' w' := by
    intro r' w'
    by_cases hrr : r' = r
    · rw [if_pos hrr]
      constructor
      · rintro ⟨id, h1, h2⟩
        have h1 : lookupLatest r' (s.q.next r [w]).latest = some id := h1
        rw [next_latest, if_pos hrr] at h1
        injection h1 with h1
        subst h1
        have h2 : (s.q.next r [w]).wires s.q.elems.length = [w'] := h2
        rw [next_wires, if_pos rfl] at h2
        simpa using h2.symm
      · rintro rfl
        refine ⟨s.q.elems.length, ?_, ?_⟩
        · show lookupLatest r' (s.q.next r [w']).latest = _
          rw [next_latest, if_pos hrr]
        · show (s.q.next r [w']).wires _ = _
          rw [next_wires, if_pos rfl]
    · rw [if_neg hrr]
      constructor
      · rintro ⟨id, h1, h2⟩
        have h1 : lookupLatest r' (s.q.next r [w]).latest = some id := h1
        have h2 : (s.q.next r [w]).wires id = [w'] := h2
        rw [next_latest, if_neg hrr] at h1
        have := (H.q.holds r' id h1).1
        rw [next_wires, if_neg (by omega)] at h2
        exact ⟨id, h1, h2⟩
      · rintro ⟨id, h1, h2⟩
        have := (H.q.holds r' id h1).1
        refine ⟨id, ?_, ?_⟩
        · show lookupLatest r' (s.q.next r [w]).latest = _
          rw [next_latest, if_neg hrr]
          exact h1
        · show (s.q.next r [w]).wires _ = _
          rw [next_wires, if_neg (by omega)]
          exact h2
  have hiff : ∀ w', w' ≠ w → (((∃ r', r' ∉ P' ∧ CurOf (Decoder.newQ s w c.qb r) r' w') ∨
      (F w' ∧ w' ≠ w)) ↔ ((∃ r', r' ∉ P ∧ CurOf s r' w') ∨ F w')) := by
    intro w' hw'
    constructor
    · rintro (⟨r', h1, h2⟩ | h1)
      · rw [hcur] at h2
        split at h2
        · exact absurd h2 hw'
        · next hrr =>
          rcases (hP r').mp h1 with h3 | h3
          · exact absurd h3 hrr
          · exact .inl ⟨r', h3, h2⟩
      · exact .inr h1.1
    · rintro (⟨r', h1, h2⟩ | h1)
      · refine .inl ⟨r', (hP r').mpr (.inr h1), ?_⟩
        rw [hcur, if_neg]
        · exact h2
        · rintro rfl
          exact h1 (hr w' h2)
      · exact .inr ⟨h1, hw'⟩
  refine ⟨fun w' ht hw' => ?_, fun w' ht hw' => ?_, h.old, ?_, ?_⟩
  · by_cases he : w' = w
    · subst he
      exact h.zero w' hty (.inr hF)
    · exact h.zero w' ht ((hiff w' he).mp hw')
  · by_cases he : w' = w
    · subst he
      exfalso
      exact hw' (.inl ⟨r, (hP r).mpr (.inl rfl), (hcur r w').mpr (by rw [if_pos rfl])⟩)
    · exact h.one w' ht fun hh => hw' ((hiff w' he).mpr hh)
  · intro w' d hd
    by_cases he : w' = w
    · subst he
      have hd : d = ⟨c.qb, [s.q.elems.length], []⟩ := by simpa [Decoder.newQ] using hd.symm
      subst hd
      exact ⟨fun _ => hty, fun hh => absurd rfl hh⟩
    · exact h.ty w' d (by simpa [Decoder.newQ, he] using hd)
  · exact fun r' id hlook => next_live h.live H.q.reg r' id hlook

theorem Lin.newB {c : Cfg T R} {s : St T R L} {P : List R} {F : Wire → Prop}
    (h : Lin c s P F) {w : Wire} (hty : typeOf s.nodes w ≠ some c.qb) (ty : T) (r : R) :
    Lin c (newB s w ty r) P F := by
  refine ⟨h.zero, h.one, h.old, ?_, h.live⟩
  intro w' d hd
  by_cases he : w' = w
  · subst he
    have hd : d = ⟨ty, [], [s.b.elems.length]⟩ := by simpa [Decoder.newB] using hd.symm
    subst hd
    exact ⟨fun hh => absurd rfl hh, fun _ => hty⟩
  · exact h.ty w' d (by simpa [Decoder.newB, he] using hd)

theorem Lin.newW {c : Cfg T R} {s : St T R L} {P : List R} {F : Wire → Prop}
    (h : Lin c s P F) (w : Wire) (ty : T) : Lin c (newW s w ty) P F := by
  refine ⟨h.zero, h.one, h.old, ?_, h.live⟩
  intro w' d hd
  by_cases he : w' = w
  · subst he
    have hd : d = ⟨ty, [], []⟩ := by simpa [Decoder.newW] using hd.symm
    subst hd
    exact ⟨fun hh => absurd rfl hh, fun hh => absurd rfl hh⟩
  · exact h.ty w' d (by simpa [Decoder.newW, he] using hd)

theorem Lin.markB {c : Cfg T R} {s : St T R L} {P : List R} {F : Wire → Prop}
    (h : Lin c s P F) (b : Half R) : Lin c { s with b := b } P F :=
  ⟨h.zero, h.one, h.old, h.ty, h.live⟩

/-! ### Looking for wires -/

/-- A node without qubits at its ports. -/
theorem Lin.quiet {c : Cfg T R} {s : St T R L} {m : Regs R L} (H : Inv c s m)
    (h : Lin c s [] fun _ => False) (n : Node T L) (hout : ∀ t ∈ n.sigOut, t ≠ c.qb)
    (hins : ∀ w, Src.val w ∈ n.ins → w.node < s.nodes.length ∧ typeOf s.nodes w ≠ some c.qb) :
    Lin c { s with nodes := n :: s.nodes } [] fun _ => False := by
  have := Lin.node H h n [] (by simp) (fun w hw => (hins w hw).1) (by simp) (by
    intro w ht _
    rw [List.count_eq_zero]
    exact fun hm => (hins w hm).2 ht)
  refine this.weaken ?_
  intro w ht
  refine ⟨fun hw => ?_, fun hf => hf.elim⟩
  have : w = ⟨s.nodes.length, w.port⟩ := by
    cases w
    simp only [Wire.mk.injEq, and_true]
    exact hw
  rw [this, show ({ s with nodes := n :: s.nodes } : St T R L).nodes = n :: s.nodes from rfl,
    typeOf_head] at ht
  exact hout _ (List.mem_of_getElem? ht) rfl

theorem takeQ_lin {c : Cfg T R} {s : St T R L} {m : Regs R L} (H : Inv c s m)
    (h : Lin c s [] fun _ => False) {x : Arg R} (hx : ArgQ c s m x)
    (hl : lookupLatest x.reg s.q.latest = some x.id) :
    Lin c (takeQ c s x).2 [] (fun _ => False) ∧ CurOf (takeQ c s x).2 x.reg (takeQ c s x).1 ∧
      typeOf (takeQ c s x).2.nodes (takeQ c s x).1 = some c.qb ∧
      ∀ r', r' ≠ x.reg → lookupLatest r' (takeQ c s x).2.q.latest = lookupLatest r' s.q.latest := by
  unfold takeQ
  obtain ⟨_, ⟨h1, h2⟩ | ⟨w, ty, h1, h2, h3, h4⟩⟩ := hx.holds
  · rw [h1]
    dsimp only
    have H1 := H.node ⟨.alloc, [], [], [c.qb]⟩
    have hn : s.wires ⟨s.nodes.length, 0⟩ = none := H.none_of_ge (Nat.le_refl _)
    have L1 := Lin.node H h (⟨.alloc, [], [], [c.qb]⟩ : Node T L) [] (by simp) (by simp) (by simp) (by simp)
    have hty : typeOf (⟨.alloc, [], [], [c.qb]⟩ :: s.nodes : List (Node T L)) ⟨s.nodes.length, 0⟩ =
        some c.qb := typeOf_head _ _ _
    have L2 := Lin.newQ (P' := []) H1 L1 (w := ⟨s.nodes.length, 0⟩) hty rfl x.reg
      (by
        rintro w' ⟨id, g1, g2⟩
        have g1 : lookupLatest x.reg s.q.latest = some id := g1
        rw [hl] at g1
        injection g1 with g1
        subst g1
        have g2 : s.q.wires x.id = [w'] := g2
        rw [h1] at g2
        simp at g2)
      (by simp)
    refine ⟨L2.weaken ?_, ?_, hty, ?_⟩
    · intro w' ht
      refine ⟨?_, fun hf => hf.elim⟩
      rintro ⟨g1, g2⟩
      apply g2
      have : w' = ⟨s.nodes.length, w'.port⟩ := by
        cases w'
        simp only [Wire.mk.injEq, and_true]
        exact g1
      rw [this] at ht ⊢
      have ht : ([c.qb] : List T)[w'.port]? = some c.qb := by
        rw [← ht]
        exact (typeOf_head (⟨.alloc, [], [], [c.qb]⟩ : Node T L) s.nodes w'.port).symm
      have : w'.port = 0 := by
        have := (List.getElem?_eq_some_iff.mp ht).1
        simpa using this
      rw [this]
    · refine ⟨s.q.elems.length, ?_, ?_⟩
      · show lookupLatest x.reg (s.q.next x.reg _).latest = _
        rw [next_latest, if_pos rfl]
      · show (s.q.next x.reg _).wires _ = _
        rw [next_wires, if_pos rfl]
    · intro r' hr'
      show lookupLatest r' (s.q.next x.reg _).latest = _
      rw [next_latest, if_neg hr']
  · rw [h1]
    subst h3
    exact ⟨h, ⟨x.id, hl, h1⟩, (h.ty w _ h2).1 (by simp [mkQ]), fun _ _ => rfl⟩

theorem convB_lin {c : Cfg T R} (hc : c.Simple) {s : St T R L} {m : Regs R L} (H : Inv c s m)
    (h : Lin c s [] fun _ => False) {w : Wire} {ty : T} {id' : Nat}
    (hd : s.wires w = some ⟨ty, [], [id']⟩) (id : Nat) (r : R) {t : T}
    (ht : t = c.bool ∨ t = c.tbool) :
    Lin c (convB c s w id r t).2 [] (fun _ => False) ∧ (convB c s w id r t).2.q = s.q ∧
      typeOf (convB c s w id r t).2.nodes (convB c s w id r t).1 ≠ some c.qb := by
  have hlt := H.fresh w (by rw [hd]; simp)
  have hnq := (h.ty w _ hd).2 (by simp)
  unfold convB
  split
  · exact ⟨h, rfl, hnq⟩
  · dsimp only
    generalize hty : recTy c s w = ty'
    have hsig : (conv c w ty' t : Node T L).sigOut = [t] := by unfold conv; split <;> rfl
    have hins : (conv c w ty' t : Node T L).ins = [.val w] := by unfold conv; split <;> rfl
    have L1 := Lin.quiet H h (conv c w ty' t)
      (by rw [hsig]; intro t' ht'; rw [List.mem_singleton.mp ht']; exact qb_ne hc ht)
      (by rw [hins]; intro w' hw'; simp at hw'; subst hw'; exact ⟨hlt, hnq⟩)
    have hnew : typeOf (conv c w ty' t :: s.nodes : List (Node T L)) ⟨s.nodes.length, 0⟩ ≠ some c.qb := by
      rw [typeOf_head, hsig]
      simp only [List.getElem?_cons_zero, ne_eq, Option.some.injEq]
      exact qb_ne hc ht
    exact ⟨(L1.newB (w := ⟨s.nodes.length, 0⟩) hnew ty' r).markB _, rfl, hnew⟩

theorem takeB_lin {c : Cfg T R} (hc : c.Simple) {s : St T R L} {m : Regs R L} (H : Inv c s m)
    (h : Lin c s [] fun _ => False) {x : Arg R} (hx : ArgB c s m x) {t : T}
    (ht : t = c.bool ∨ t = c.tbool) :
    Lin c (takeB c s x t).2 [] (fun _ => False) ∧ (takeB c s x t).2.q = s.q ∧
      typeOf (takeB c s x t).2.nodes (takeB c s x t).1 ≠ some c.qb := by
  unfold takeB
  obtain ⟨_, ⟨h1, h2⟩ | ⟨w, ty, h1, h2, h3, h4⟩⟩ := hx.holds
  · rw [h1]
    dsimp only
    have H1 := (H.node ⟨.ff, [], [], [c.bool]⟩)
    have hn : s.wires ⟨s.nodes.length, 0⟩ = none := H.none_of_ge (Nat.le_refl _)
    have H2 := H1.newB (w := ⟨s.nodes.length, 0⟩) hn (by simp) x.reg (singleB H hx.known) (.inl rfl)
    have L1 := Lin.quiet H h (⟨.ff, [], [], [c.bool]⟩ : Node T L)
      (by intro t' ht'; rw [List.mem_singleton.mp ht']; exact qb_ne hc (.inl rfl)) (by simp)
    have L2 := L1.newB (w := ⟨s.nodes.length, 0⟩) (by
      rw [show ({ s with nodes := (⟨.ff, [], [], [c.bool]⟩ : Node T L) :: s.nodes } : St T R L).nodes =
        (⟨.ff, [], [], [c.bool]⟩ : Node T L) :: s.nodes from rfl, typeOf_head]
      simp only [List.getElem?_cons_zero, ne_eq, Option.some.injEq]
      exact qb_ne hc (.inl rfl)) c.bool x.reg
    obtain ⟨g1, g2, g3⟩ := convB_lin hc H2 L2 (w := ⟨s.nodes.length, 0⟩) (ty := c.bool)
      (id' := s.b.elems.length) (by simp [newB]) s.b.elems.length x.reg ht
    exact ⟨g1, g2, g3⟩
  · rw [h1]
    exact convB_lin hc H h h2 x.id x.reg ht

/-- The exact outcome of a search. -/
inductive FindCase (c : Cfg T R) (s : St T R L) (t : T) (a a' : Rest R) (s' : St T R L) :
    Found T → Prop where
  | par (p : Nat) (h : c.param t = true) (hs : s' = s) (hq : a'.q = a.q) (hb : a'.b = a.b) :
      FindCase c s t a a' s' (.par p)
  | gap (h : c.supported t = false) (hs : s' = s) (ha : a' = a) : FindCase c s t a a' s' .unsupported
  | qubit (d : WireData T) (x : Arg R) (h : t = c.qb) (hx : a.q = x :: a'.q) (hb : a'.b = a.b)
      (hs : s' = (takeQ c s x).2) : FindCase c s t a a' s' (.reg (takeQ c s x).1 d)
  | bit (d : WireData T) (x : Arg R) (h : t = c.bool ∨ t = c.tbool) (hx : a.b = x :: a'.b)
      (hq : a'.q = a.q) (hs : s' = (takeB c s x t).2) :
      FindCase c s t a a' s' (.reg (takeB c s x t).1 d)

theorem find_cases {c : Cfg T R} (hc : c.Simple) {s s' : St T R L} {m : Regs R L} (H : Inv c s m)
    {t : T} {a a' : Rest R} (ha : Args c s m a) {u : Bool} {f : Found T}
    (h : find c s t a u = .ok (f, a', s')) : FindCase c s t a a' s' f := by
  cases hp : c.param t with
  | true =>
    rw [find_param c s a u hp] at h
    cases hap : a.p with
    | nil => rw [hap] at h; simp at h
    | cons p ps =>
      rw [hap] at h
      simp only [Except.ok.injEq, Prod.mk.injEq] at h
      obtain ⟨rfl, rfl, rfl⟩ := h
      exact .par p hp rfl rfl rfl
  | false =>
    cases hs : c.supported t with
    | false =>
      rw [find_unsupported c s a u hp hs] at h
      cases u with
      | false => simp at h
      | true =>
        simp only [if_true, Except.ok.injEq, Prod.mk.injEq] at h
        obtain ⟨rfl, rfl, rfl⟩ := h
        exact .gap hs rfl rfl
    | true =>
      rcases hc.only t hs with rfl | ht
      · cases hq : a.q with
        | nil => rw [find_qb_nil hc ha.heads hq] at h; simp at h
        | cons x xs =>
          have hax := ha.q x (by rw [hq]; simp)
          obtain ⟨d, hd⟩ := find_qb hc ha.heads hq (singleQ H hax.known) u
          rw [hd] at h
          split at h
          · simp at h
          · simp only [Except.ok.injEq, Prod.mk.injEq] at h
            obtain ⟨rfl, rfl, rfl⟩ := h
            exact .qubit d x rfl hq rfl rfl
      · cases hq : a.b with
        | nil => rw [find_bit_nil hc ha.heads hq u ht] at h; simp at h
        | cons x xs =>
          have hax := ha.b x (by rw [hq]; simp)
          obtain ⟨d, hd⟩ := find_bit hc ha.heads H.fresh hq (singleB H hax.known) u ht
          rw [hd] at h
          split at h
          · simp at h
          · simp only [Except.ok.injEq, Prod.mk.injEq] at h
            obtain ⟨rfl, rfl, rfl⟩ := h
            exact .bit d x ht hq rfl rfl

/-- The qubit arguments are the latest versions of different registers. -/
structure LinArgs (s : St T R L) (qs : List (Arg R)) : Prop where
  look : ∀ x ∈ qs, lookupLatest x.reg s.q.latest = some x.id
  nodup : (qs.map Arg.reg).Nodup

theorem LinArgs.tail {s s' : St T R L} {x : Arg R} {qs : List (Arg R)} (h : LinArgs s (x :: qs))
    (hk : ∀ r', r' ≠ x.reg → lookupLatest r' s'.q.latest = lookupLatest r' s.q.latest) :
    LinArgs s' qs := by
  have hn := h.nodup
  rw [List.map_cons, List.nodup_cons] at hn
  refine ⟨fun y hy => ?_, hn.2⟩
  rw [hk y.reg]
  · exact h.look y (by simp [hy])
  · rintro he
    exact hn.1 (he ▸ List.mem_map.mpr ⟨y, hy, rfl⟩)

theorem CurOf.keep {c : Cfg T R} {s s' : St T R L} {m : Regs R L} (H : Inv c s m) (he : Ext s s')
    {r : R} {w : Wire} (hk : lookupLatest r s'.q.latest = lookupLatest r s.q.latest)
    (h : CurOf s r w) : CurOf s' r w := by
  obtain ⟨id, h1, h2⟩ := h
  exact ⟨id, hk.trans h1, (he.q.wires id (H.q.holds r id h1).1).trans h2⟩

/-- A list of sources uses the current wires of some registers once. -/
structure UsesOnce (c : Cfg T R) (s : St T R L) (cs : List (Arg R)) (count : Wire → Nat) : Prop where
  one : ∀ w, typeOf s.nodes w = some c.qb → (∃ r ∈ cs.map Arg.reg, CurOf s r w) → count w = 1
  zero : ∀ w, typeOf s.nodes w = some c.qb → ¬ (∃ r ∈ cs.map Arg.reg, CurOf s r w) → count w = 0

theorem UsesOnce.consQ {c : Cfg T R} {s : St T R L} {m : Regs R L} (H : Inv c s m)
    {cs : List (Arg R)} {f : Wire → Nat} (h : UsesOnce c s cs f) {x : Arg R} {w0 : Wire}
    (hcur : CurOf s x.reg w0) (hx : x.reg ∉ cs.map Arg.reg) :
    UsesOnce c s (x :: cs) fun w => f w + if w0 = w then 1 else 0 := by
  refine ⟨fun w ht hw => ?_, fun w ht hw => ?_⟩
  · by_cases he : w0 = w
    · subst he
      rw [if_pos rfl, h.zero w0 ht]
      rintro ⟨r, hr, hcr⟩
      exact hx (CurOf.inj H hcr hcur ▸ hr)
    · rw [if_neg he, h.one w ht]
      obtain ⟨r, hr, hcr⟩ := hw
      rw [List.map_cons, List.mem_cons] at hr
      rcases hr with rfl | hr
      · exact absurd (hcur.unique hcr) he
      · exact ⟨r, hr, hcr⟩
  · have he : w0 ≠ w := by
      rintro rfl
      exact hw ⟨x.reg, by simp, hcur⟩
    rw [if_neg he, h.zero w ht]
    rintro ⟨r, hr, hcr⟩
    exact hw ⟨r, by rw [List.map_cons]; exact List.mem_cons_of_mem _ hr, hcr⟩

theorem UsesOnce.consOther {c : Cfg T R} {s : St T R L}
    {cs : List (Arg R)} {f : Wire → Nat} (h : UsesOnce c s cs f) {w0 : Wire}
    (hty : typeOf s.nodes w0 ≠ some c.qb) :
    UsesOnce c s cs fun w => f w + if w0 = w then 1 else 0 := by
  have hne : ∀ w, typeOf s.nodes w = some c.qb → w0 ≠ w := by
    rintro w ht rfl
    exact hty ht
  exact ⟨fun w ht hw => by rw [if_neg (hne w ht), h.one w ht hw],
    fun w ht hw => by rw [if_neg (hne w ht), h.zero w ht hw]⟩

theorem typeOf_ext {c : Cfg T R} {s s' : St T R L} {m : Regs R L} (hq : Quiet c m s s') {w : Wire}
    (hlt : w.node < s.nodes.length) (hk : ∃ l, s'.nodes = l ++ s.nodes) :
    typeOf s'.nodes w = typeOf s.nodes w := by
  obtain ⟨l, hl⟩ := hk
  rw [hl]
  clear hl hq
  induction l with
  | nil => rfl
  | cons n l ih => rw [List.cons_append, typeOf_cons _ _ (by simp; omega), ih]

omit [DecidableEq T] in
theorem takeQ_nodes (c : Cfg T R) (s : St T R L) (x : Arg R) :
    ∃ l, (takeQ c s x).2.nodes = l ++ s.nodes := by
  unfold takeQ
  split
  · exact ⟨[], rfl⟩
  · exact ⟨[_], rfl⟩

theorem convB_nodes (c : Cfg T R) (s : St T R L) (w : Wire) (id : Nat) (r : R) (t : T) :
    ∃ l, (convB c s w id r t).2.nodes = l ++ s.nodes := by
  unfold convB
  split
  · exact ⟨[], rfl⟩
  · exact ⟨[_], rfl⟩

theorem takeB_nodes (c : Cfg T R) (s : St T R L) (x : Arg R) (t : T) :
    ∃ l, (takeB c s x t).2.nodes = l ++ s.nodes := by
  unfold takeB
  split
  · exact convB_nodes _ _ _ _ _ _
  · obtain ⟨l, hl⟩ := convB_nodes c (newB { s with nodes := (⟨.ff, [], [], [c.bool]⟩ : Node T L) :: s.nodes }
      ⟨s.nodes.length, 0⟩ c.bool x.reg) ⟨s.nodes.length, 0⟩ s.b.elems.length x.reg t
    exact ⟨l ++ [⟨.ff, [], [], [c.bool]⟩], by rw [hl]; simp [newB]⟩

/-- One search in the setting of linear use. -/
theorem find_lin {c : Cfg T R} (hc : c.Simple) {s s' : St T R L} {m : Regs R L} (H : Inv c s m)
    {t : T} {a a' : Rest R} (ha : Args c s m a) {u : Bool} {f : Found T}
    (hlin : Lin c s [] fun _ => False) (hla : LinArgs s a.q)
    (h : find c s t a u = .ok (f, a', s')) :
    Lin c s' [] (fun _ => False) ∧ (∃ l, s'.nodes = l ++ s.nodes) ∧ LinArgs s' a'.q ∧
    ((∃ w d x, f = .reg w d ∧ t = c.qb ∧ a.q = x :: a'.q ∧ CurOf s' x.reg w ∧
        typeOf s'.nodes w = some c.qb ∧
        ∀ r', r' ≠ x.reg → lookupLatest r' s'.q.latest = lookupLatest r' s.q.latest) ∨
      (t ≠ c.qb ∧ a'.q = a.q ∧ s'.q = s.q ∧ ∀ w d, f = .reg w d →
        typeOf s'.nodes w ≠ some c.qb ∧ w.node < s'.nodes.length)) := by
  cases find_cases hc H ha h with
  | par p hp hs hq hb =>
    subst hs
    refine ⟨hlin, ⟨[], rfl⟩, by rw [hq]; exact hla, .inr ⟨?_, hq, rfl, by simp⟩⟩
    rintro rfl
    rw [param_false hc (sup_qb hc)] at hp
    exact absurd hp (by simp)
  | gap hs1 hs hq =>
    subst hs hq
    refine ⟨hlin, ⟨[], rfl⟩, hla, .inr ⟨?_, rfl, rfl, by simp⟩⟩
    rintro rfl
    rw [sup_qb hc] at hs1
    exact absurd hs1 (by simp)
  | qubit d x ht hx hb hs =>
    subst hs
    rw [hx] at hla
    obtain ⟨h1, h2, h3, h4⟩ := takeQ_lin H hlin (ha.q x (by rw [hx]; simp)) (hla.look x (by simp))
    exact ⟨h1, takeQ_nodes c s x, hla.tail h4, .inl ⟨_, d, x, rfl, ht, hx, h2, h3, h4⟩⟩
  | bit d x ht hx hq hs =>
    subst hs
    have hax := ha.b x (by rw [hx]; simp)
    obtain ⟨h1, h2, h3⟩ := takeB_lin hc H hlin hax ht
    refine ⟨h1, takeB_nodes c s x t, ?_, .inr ⟨qb_ne hc ht, hq, h2, ?_⟩⟩
    · rw [hq]
      exact ⟨fun y hy => by rw [h2]; exact hla.look y hy, hla.nodup⟩
    · intro w d' hw
      injection hw with hw _
      subst hw
      exact ⟨h3, (takeB_quiet H hax t).2.2⟩

theorem findAll_lin {c : Cfg T R} (hc : c.Simple) {ts : List T} {s s' : St T R L} {m : Regs R L}
    (H : Inv c s m) {a : Rest R} (ha : Args c s m a) {ws : List Wire} {ps : List Nat}
    (hlin : Lin c s [] fun _ => False) (hla : LinArgs s a.q)
    (h : findAll c s ts a = .ok (ws, ps, s')) :
    ∃ cs rest, a.q = cs ++ rest ∧ cs.length = c.countQ ts ∧ Lin c s' [] (fun _ => False) ∧
      (∃ l, s'.nodes = l ++ s.nodes) ∧ UsesOnce c s' cs (fun w => ws.count w) ∧
      (∀ r', r' ∉ cs.map Arg.reg → lookupLatest r' s'.q.latest = lookupLatest r' s.q.latest) := by
  induction ts generalizing s s' a ws ps with
  | nil =>
    simp only [findAll, Except.ok.injEq, Prod.mk.injEq] at h
    obtain ⟨rfl, rfl, rfl⟩ := h
    exact ⟨[], a.q, rfl, by simp [Cfg.countQ], hlin, ⟨[], rfl⟩, ⟨by simp, by simp⟩, fun _ _ => rfl⟩
  | cons t ts ih =>
    rw [findAll] at h
    cases hf : find c s t a false with
    | error e => rw [hf] at h; simp at h
    | ok y =>
      obtain ⟨f, a', s1⟩ := y
      rw [hf] at h
      dsimp only at h
      obtain ⟨hq, hr, ha'⟩ := find_spec hc H ha hf
      obtain ⟨l1, ⟨e1, he1⟩, l3, l4⟩ := find_lin hc H ha hlin hla hf
      cases hg : findAll c s1 ts a' with
      | error e => rw [hg] at h; simp at h
      | ok z =>
        obtain ⟨ws', ps', s2⟩ := z
        rw [hg] at h
        dsimp only at h
        obtain ⟨hq2, hlt2, _⟩ := findAll_spec hc hq.inv ha' hg
        obtain ⟨cs, rest, g1, g2, g3, ⟨e2, he2⟩, g5, g6⟩ := ih hq.inv ha' l1 l3 hg
        have hnodes : ∃ l, s2.nodes = l ++ s.nodes := ⟨e2 ++ e1, by rw [he2, he1, List.append_assoc]⟩
        rcases l4 with ⟨w, d, x, hfw, ht, hax, hcur, hty, hlook⟩ | ⟨ht, haq, hsq, hfw⟩
        · subst hfw ht
          simp only [Except.ok.injEq, Prod.mk.injEq] at h
          obtain ⟨rfl, rfl, rfl⟩ := h
          have hn := hla.nodup
          rw [hax, g1, List.map_cons, List.nodup_cons, List.map_append, List.mem_append, not_or] at hn
          refine ⟨x :: cs, rest, by rw [hax, g1]; rfl, ?_, g3, hnodes, ?_, ?_⟩
          · rw [List.length_cons, g2]
            simp only [Cfg.countQ, List.map_cons, List.sum_cons, hc.qb_q]
            omega
          · have hcur2 : CurOf s2 x.reg w := hcur.keep hq.inv hq2.ext (g6 _ hn.1.1)
            have := g5.consQ hq2.inv hcur2 hn.1.1
            refine ⟨fun w' h1 h2 => ?_, fun w' h1 h2 => ?_⟩
            · rw [List.count_cons]
              have := this.one w' h1 h2
              simpa using this
            · rw [List.count_cons]
              have := this.zero w' h1 h2
              simpa using this
          · intro r' hr'
            rw [List.map_cons, List.mem_cons, not_or] at hr'
            rw [g6 r' hr'.2, hlook r' hr'.1]
        · have hcnt : c.qubits t = 0 := by
            by_cases hb : t = c.bool ∨ t = c.tbool
            · exact bit_q hc hb
            · exact (counts_other hc ht hb).1
          have hlen : cs.length = c.countQ (t :: ts) := by
            rw [g2]
            simp only [Cfg.countQ, List.map_cons, List.sum_cons, hcnt]
            omega
          have hlook : ∀ r', r' ∉ cs.map Arg.reg →
              lookupLatest r' s2.q.latest = lookupLatest r' s.q.latest := by
            intro r' hr'
            rw [g6 r' hr', hsq]
          cases f with
          | unsupported => simp at h
          | par p =>
            simp only [Except.ok.injEq, Prod.mk.injEq] at h
            obtain ⟨rfl, rfl, rfl⟩ := h
            exact ⟨cs, rest, by rw [← haq, g1], hlen, g3, hnodes, g5, hlook⟩
          | reg w d =>
            simp only [Except.ok.injEq, Prod.mk.injEq] at h
            obtain ⟨rfl, rfl, rfl⟩ := h
            refine ⟨cs, rest, by rw [← haq, g1], hlen, g3, hnodes, ?_, hlook⟩
            obtain ⟨hty, hwlt⟩ := hfw w d rfl
            have hty2 : typeOf s2.nodes w ≠ some c.qb := by
              rw [typeOf_ext hq2 hwlt ⟨e2, he2⟩]
              exact hty
            have := g5.consOther hty2
            refine ⟨fun w' h1 h2 => ?_, fun w' h1 h2 => ?_⟩
            · rw [List.count_cons]
              have := this.one w' h1 h2
              simpa using this
            · rw [List.count_cons]
              have := this.zero w' h1 h2
              simpa using this

theorem finishOutputs_lin {c : Cfg T R} (hc : c.Simple) {ts : List T} {s s' : St T R L}
    {m : Regs R L} (H : Inv c s m) {a a' : Rest R} (ha : Args c s m a) {ss : List Src}
    (hlin : Lin c s [] fun _ => False) (hla : LinArgs s a.q)
    (h : finishOutputs c s ts a = .ok (ss, a', s')) :
    ∃ cs, a.q = cs ++ a'.q ∧ Lin c s' [] (fun _ => False) ∧
      (∃ l, s'.nodes = l ++ s.nodes) ∧ UsesOnce c s' cs (fun w => ss.count (.val w)) ∧
      (∀ w, .val w ∈ ss → w.node < s'.nodes.length) ∧
      (∀ r', r' ∉ cs.map Arg.reg → lookupLatest r' s'.q.latest = lookupLatest r' s.q.latest) := by
  induction ts generalizing s s' a ss a' with
  | nil =>
    simp only [finishOutputs, Except.ok.injEq, Prod.mk.injEq] at h
    obtain ⟨rfl, rfl, rfl⟩ := h
    exact ⟨[], rfl, hlin, ⟨[], rfl⟩, ⟨by simp, by simp⟩, by simp, fun _ _ => rfl⟩
  | cons t ts ih =>
    rw [finishOutputs] at h
    cases hf : find c s t a true with
    | error e => rw [hf] at h; simp at h
    | ok y =>
      obtain ⟨f, a1, s1⟩ := y
      rw [hf] at h
      dsimp only at h
      obtain ⟨hq, hr, ha'⟩ := find_spec hc H ha hf
      obtain ⟨l1, ⟨e1, he1⟩, l3, l4⟩ := find_lin hc H ha hlin hla hf
      cases hg : finishOutputs c s1 ts a1 with
      | error e => rw [hg] at h; simp at h
      | ok z =>
        obtain ⟨ws', ps', s2⟩ := z
        rw [hg] at h
        simp only [Except.ok.injEq, Prod.mk.injEq] at h
        obtain ⟨rfl, rfl, rfl⟩ := h
        obtain ⟨hq2, _, _⟩ := finishOutputs_spec hc hq.inv ha' hg
        obtain ⟨cs, g1, g3, ⟨e2, he2⟩, g5, g7, g6⟩ := ih hq.inv ha' l1 l3 hg
        have hnodes : ∃ l, s2.nodes = l ++ s.nodes := ⟨e2 ++ e1, by rw [he2, he1, List.append_assoc]⟩
        rcases l4 with ⟨w, d, x, hfw, ht, hax, hcur, hty, hlook⟩ | ⟨ht, haq, hsq, hfw⟩
        · subst hfw ht
          have hn := hla.nodup
          rw [hax, g1, List.map_cons, List.nodup_cons, List.map_append, List.mem_append, not_or] at hn
          refine ⟨x :: cs, by rw [hax, g1]; rfl, g3, hnodes, ?_, ?_, ?_⟩
          · have hcur2 : CurOf s2 x.reg w := hcur.keep hq.inv hq2.ext (g6 _ hn.1.1)
            have := g5.consQ hq2.inv hcur2 hn.1.1
            refine ⟨fun w' h1 h2 => ?_, fun w' h1 h2 => ?_⟩
            · rw [List.count_cons]
              have := this.one w' h1 h2
              simpa using this
            · rw [List.count_cons]
              have := this.zero w' h1 h2
              simpa using this
          · intro w' hw'
            rcases List.mem_cons.mp hw' with he | hw'
            · injection he with he
              subst he
              have := typeOf_lt hty
              have := hq2.ext.len
              omega
            · exact g7 w' hw'
          · intro r' hr'
            rw [List.map_cons, List.mem_cons, not_or] at hr'
            rw [g6 r' hr'.2, hlook r' hr'.1]
        · have hlook : ∀ r', r' ∉ cs.map Arg.reg →
              lookupLatest r' s2.q.latest = lookupLatest r' s.q.latest := by
            intro r' hr'
            rw [g6 r' hr', hsq]
          have hskip : ∀ src : Src, (∀ w, src ≠ .val w) →
              UsesOnce c s2 cs (fun w => (src :: ws').count (.val w)) ∧
              (∀ w, .val w ∈ src :: ws' → w.node < s2.nodes.length) := by
            intro src hsrc
            have hcnt : ∀ w, (src :: ws').count (.val w) = ws'.count (.val w) := by
              intro w
              rw [List.count_cons]
              simp [hsrc w]
            refine ⟨⟨fun w h1 h2 => ?_, fun w h1 h2 => ?_⟩, fun w hw => ?_⟩
            · rw [hcnt]; exact g5.one w h1 h2
            · rw [hcnt]; exact g5.zero w h1 h2
            · rcases List.mem_cons.mp hw with he | hw
              · exact absurd he.symm (hsrc w)
              · exact g7 w hw
          cases f with
          | unsupported =>
            obtain ⟨u1, u2⟩ := hskip .gap (by simp)
            exact ⟨cs, by rw [← haq, g1], g3, hnodes, u1, u2, hlook⟩
          | par p =>
            obtain ⟨u1, u2⟩ := hskip (.par p) (by simp)
            exact ⟨cs, by rw [← haq, g1], g3, hnodes, u1, u2, hlook⟩
          | reg w d =>
            obtain ⟨hty, hwlt⟩ := hfw w d rfl
            refine ⟨cs, by rw [← haq, g1], g3, hnodes, ?_, ?_, hlook⟩
            · have hty2 : typeOf s2.nodes w ≠ some c.qb := by
                rw [typeOf_ext hq2 hwlt ⟨e2, he2⟩]
                exact hty
              have := g5.consOther hty2
              refine ⟨fun w' h1 h2 => ?_, fun w' h1 h2 => ?_⟩
              · rw [List.count_cons]
                have := this.one w' h1 h2
                simpa using this
              · rw [List.count_cons]
                have := this.zero w' h1 h2
                simpa using this
            · intro w' hw'
              rcases List.mem_cons.mp hw' with he | hw'
              · injection he with he
                subst he
                exact Nat.lt_of_lt_of_le hwlt hq2.ext.len
              · exact g7 w' hw'

end Verif.Decoder
