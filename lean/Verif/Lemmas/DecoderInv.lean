import Verif.Lemmas.Decoder

/-!
# The invariant of the decoder: the latest element of a register carries its value
-/

namespace Verif.Decoder

variable {T R L : Type} [DecidableEq T] [DecidableEq R]

/-! ### Growing states -/

section
omit [DecidableEq T]

structure HExt (h h' : Half R) : Prop where
  len : h.elems.length ≤ h'.elems.length
  wires : ∀ i, i < h.elems.length → h'.wires i = h.wires i
  reg : ∀ i, i < h.elems.length → h'.regOf i = h.regOf i

theorem HExt.refl (h : Half R) : HExt h h := ⟨Nat.le_refl _, fun _ _ => rfl, fun _ _ => rfl⟩

theorem HExt.trans {h1 h2 h3 : Half R} (a : HExt h1 h2) (b : HExt h2 h3) : HExt h1 h3 :=
  ⟨Nat.le_trans a.len b.len,
    fun i hi => (b.wires i (Nat.lt_of_lt_of_le hi a.len)).trans (a.wires i hi),
    fun i hi => (b.reg i (Nat.lt_of_lt_of_le hi a.len)).trans (a.reg i hi)⟩

theorem HExt.next (h : Half R) (r : R) (ws : List Wire) : HExt h (h.next r ws) :=
  ⟨by rw [next_length]; omega,
    fun i hi => by rw [next_wires, if_neg (by omega)],
    fun i hi => by rw [next_regOf, if_neg (by omega)]⟩

theorem HExt.mark (h : Half R) (id : Nat) : HExt h (h.mark id) :=
  ⟨Nat.le_of_eq (mark_length h id).symm, fun _ _ => rfl, fun i _ => mark_regOf h id i⟩

theorem HExt.marks (ids : List Nat) (h : Half R) : HExt h (ids.foldl Half.mark h) := by
  induction ids generalizing h with
  | nil => exact .refl h
  | cons i is ih => exact (HExt.mark h i).trans (ih _)

theorem marks_latest (ids : List Nat) (h : Half R) :
    (ids.foldl Half.mark h).latest = h.latest := by
  induction ids generalizing h with
  | nil => rfl
  | cons i is ih => exact ih _

theorem eval_cons (n : Node T L) (ns : List (Node T L)) {w : Wire} (h : w.node < ns.length) :
    eval (n :: ns) w = eval ns w := by
  rw [eval, if_neg (by omega)]

structure Ext (s s' : St T R L) : Prop where
  len : s.nodes.length ≤ s'.nodes.length
  eval : ∀ w, w.node < s.nodes.length → eval s'.nodes w = eval s.nodes w
  wires : ∀ w d, s.wires w = some d → s'.wires w = some d
  q : HExt s.q s'.q
  b : HExt s.b s'.b

theorem Ext.refl (s : St T R L) : Ext s s :=
  ⟨Nat.le_refl _, fun _ _ => rfl, fun _ _ h => h, .refl _, .refl _⟩

theorem Ext.trans {s1 s2 s3 : St T R L} (a : Ext s1 s2) (b : Ext s2 s3) : Ext s1 s3 :=
  ⟨Nat.le_trans a.len b.len,
    fun w hw => (b.eval w (Nat.lt_of_lt_of_le hw a.len)).trans (a.eval w hw),
    fun w d h => b.wires w d (a.wires w d h), a.q.trans b.q, a.b.trans b.b⟩

theorem Ext.node (s : St T R L) (n : Node T L) : Ext s { s with nodes := n :: s.nodes } :=
  ⟨by simp, fun w hw => eval_cons n s.nodes hw, fun _ _ h => h, .refl _, .refl _⟩

theorem Ext.newQ {s : St T R L} {w : Wire} (hw : s.wires w = none) (ty : T) (r : R) :
    Ext s (newQ s w ty r) :=
  ⟨Nat.le_refl _, fun _ _ => rfl,
    fun w' d h => by
      have : w' ≠ w := by rintro rfl; rw [hw] at h; exact absurd h (by simp)
      simp [Decoder.newQ, this, h],
    HExt.next _ _ _, .refl _⟩

theorem Ext.newB {s : St T R L} {w : Wire} (hw : s.wires w = none) (ty : T) (r : R) :
    Ext s (newB s w ty r) :=
  ⟨Nat.le_refl _, fun _ _ => rfl,
    fun w' d h => by
      have : w' ≠ w := by rintro rfl; rw [hw] at h; exact absurd h (by simp)
      simp [Decoder.newB, this, h],
    .refl _, HExt.next _ _ _⟩

theorem Ext.newW {s : St T R L} {w : Wire} (hw : s.wires w = none) (ty : T) :
    Ext s (newW s w ty) :=
  ⟨Nat.le_refl _, fun _ _ => rfl,
    fun w' d h => by
      have : w' ≠ w := by rintro rfl; rw [hw] at h; exact absurd h (by simp)
      simp [Decoder.newW, this, h],
    .refl _, .refl _⟩

theorem Ext.marks (s : St T R L) (qi bi : List Nat) :
    Ext s { s with q := qi.foldl Half.mark s.q, b := bi.foldl Half.mark s.b } :=
  ⟨Nat.le_refl _, fun _ _ => rfl, fun _ _ h => h, HExt.marks _ _, HExt.marks _ _⟩

theorem Holds.mono {h h' : Half R} {wires wires' : Wire → Option (WireData T)} {ev ev' : Wire → V L}
    {mk : T → Nat → WireData T} {ok : T → Prop} {d : V L} {id : Nat} {v : V L}
    (H : Holds h wires ev mk ok d id v) (he : HExt h h')
    (hw : ∀ w x, wires w = some x → wires' w = some x ∧ ev' w = ev w) :
    Holds h' wires' ev' mk ok d id v := by
  obtain ⟨hlt, H⟩ := H
  refine ⟨Nat.lt_of_lt_of_le hlt he.len, ?_⟩
  rcases H with ⟨h1, h2⟩ | ⟨w, ty, h1, h2, h3, h4⟩
  · exact .inl ⟨(he.wires id hlt).trans h1, h2⟩
  · obtain ⟨h5, h6⟩ := hw w _ h2
    exact .inr ⟨w, ty, (he.wires id hlt).trans h1, h5, h3, h6.trans h4⟩

end

/-! ### The invariant -/

/-- The latest element of every register carries the register's value. -/
structure HInv (h : Half R) (wires : Wire → Option (WireData T)) (ev : Wire → V L)
    (mk : T → Nat → WireData T) (ok : T → Prop) (d : V L) (single : R → Bool) (m : R → V L) :
    Prop where
  holds : ∀ r id, lookupLatest r h.latest = some id → Holds h wires ev mk ok d id (m r)
  reg : ∀ r id, lookupLatest r h.latest = some id → h.regOf id = some r
  single : ∀ r, (lookupLatest r h.latest).isSome → single r = true

structure Inv (c : Cfg T R) (s : St T R L) (m : Regs R L) : Prop where
  q : HInv s.q s.wires (eval s.nodes) mkQ (· = c.qb) .zero c.single m.q
  b : HInv s.b s.wires (eval s.nodes) mkB (fun t => t = c.bool ∨ t = c.tbool) .ff c.single m.b
  fresh : ∀ w, s.wires w ≠ none → w.node < s.nodes.length

section
omit [DecidableEq T]

theorem HInv.mono {h h' : Half R} {wires wires' : Wire → Option (WireData T)} {ev ev' : Wire → V L}
    {mk : T → Nat → WireData T} {ok : T → Prop} {d : V L} {single : R → Bool} {m : R → V L}
    (H : HInv h wires ev mk ok d single m) (he : HExt h h') (hl : h'.latest = h.latest)
    (hw : ∀ w x, wires w = some x → wires' w = some x ∧ ev' w = ev w) :
    HInv h' wires' ev' mk ok d single m := by
  refine ⟨fun r id hr => ?_, fun r id hr => ?_, fun r hr => ?_⟩
  · rw [hl] at hr
    exact (H.holds r id hr).mono he hw
  · rw [hl] at hr
    rw [he.reg id (H.holds r id hr).1]
    exact H.reg r id hr
  · rw [hl] at hr
    exact H.single r hr

theorem HInv.next {h : Half R} {wires : Wire → Option (WireData T)} {ev : Wire → V L}
    {mk : T → Nat → WireData T} {ok : T → Prop} {d : V L} {single : R → Bool} {m : R → V L}
    (H : HInv h wires ev mk ok d single m) (r : R) (hs : single r = true) {w : Wire}
    (hw : wires w = none) {ty : T} (hok : ok ty) :
    HInv (h.next r [w]) (fun w' => if w' = w then some (mk ty h.elems.length) else wires w') ev mk ok
      d single (setReg m r (ev w)) := by
  have hm : ∀ w' x, wires w' = some x →
      (if w' = w then some (mk ty h.elems.length) else wires w') = some x ∧ ev w' = ev w' := by
    intro w' x hx
    have : w' ≠ w := by rintro rfl; rw [hw] at hx; exact absurd hx (by simp)
    exact ⟨by rw [if_neg this]; exact hx, rfl⟩
  refine ⟨fun r' id hr => ?_, fun r' id hr => ?_, fun r' hr => ?_⟩
  · rw [next_latest] at hr
    by_cases hrr : r' = r
    · rw [if_pos hrr] at hr
      injection hr with hr
      subst hr hrr
      refine ⟨by rw [next_length]; omega, .inr ⟨w, ty, ?_, ?_, hok, ?_⟩⟩
      · rw [next_wires, if_pos rfl]
      · simp
      · simp [setReg]
    · rw [if_neg hrr] at hr
      have := (H.holds r' id hr).mono (HExt.next h r [w]) hm
      simpa [setReg, hrr] using this
  · rw [next_latest] at hr
    rw [next_regOf]
    by_cases hrr : r' = r
    · rw [if_pos hrr] at hr
      injection hr with hr
      rw [if_pos hr.symm, hrr]
    · rw [if_neg hrr] at hr
      rw [if_neg (by have := (H.holds r' id hr).1; omega)]
      exact H.reg r' id hr
  · rw [next_latest] at hr
    by_cases hrr : r' = r
    · rw [hrr]; exact hs
    · rw [if_neg hrr] at hr
      exact H.single r' hr

/-- A new element without a wire. -/
theorem HInv.declare {h : Half R} {wires : Wire → Option (WireData T)} {ev : Wire → V L}
    {mk : T → Nat → WireData T} {ok : T → Prop} {d : V L} {single : R → Bool} {m : R → V L}
    (H : HInv h wires ev mk ok d single m) (r : R) (hs : single r = true) (hm : m r = d) :
    HInv (h.next r []) wires ev mk ok d single m := by
  refine ⟨fun r' id hr => ?_, fun r' id hr => ?_, fun r' hr => ?_⟩
  · rw [next_latest] at hr
    by_cases hrr : r' = r
    · rw [if_pos hrr] at hr
      injection hr with hr
      subst hr hrr
      refine ⟨by rw [next_length]; omega, .inl ⟨?_, hm⟩⟩
      rw [next_wires, if_pos rfl]
    · rw [if_neg hrr] at hr
      exact (H.holds r' id hr).mono (HExt.next h r []) fun w x hx => ⟨hx, rfl⟩
  · rw [next_latest] at hr
    rw [next_regOf]
    by_cases hrr : r' = r
    · rw [if_pos hrr] at hr
      injection hr with hr
      rw [if_pos hr.symm, hrr]
    · rw [if_neg hrr] at hr
      rw [if_neg (by have := (H.holds r' id hr).1; omega)]
      exact H.reg r' id hr
  · rw [next_latest] at hr
    by_cases hrr : r' = r
    · rw [hrr]; exact hs
    · rw [if_neg hrr] at hr
      exact H.single r' hr

theorem Inv.node {c : Cfg T R} {s : St T R L} {m : Regs R L} (H : Inv c s m) (n : Node T L) :
    Inv c { s with nodes := n :: s.nodes } m := by
  have hm : ∀ w x, s.wires w = some x → s.wires w = some x ∧
      eval (n :: s.nodes) w = eval s.nodes w :=
    fun w x hx => ⟨hx, eval_cons n s.nodes (H.fresh w (by rw [hx]; simp))⟩
  refine ⟨H.q.mono (.refl _) rfl hm, H.b.mono (.refl _) rfl hm, fun w hw => ?_⟩
  have := H.fresh w hw
  simp only [List.length_cons]
  omega

theorem Inv.newQ {c : Cfg T R} {s : St T R L} {m : Regs R L} (H : Inv c s m) {w : Wire}
    (hw : s.wires w = none) (hlt : w.node < s.nodes.length) (r : R) (hs : c.single r = true) :
    Inv c (newQ s w c.qb r) { m with q := setReg m.q r (eval s.nodes w) } := by
  refine ⟨H.q.next r hs hw rfl, ?_, fun w' hw' => ?_⟩
  · refine H.b.mono (.refl _) rfl fun w' x hx => ⟨?_, rfl⟩
    have : w' ≠ w := by rintro rfl; rw [hw] at hx; exact absurd hx (by simp)
    simp [Decoder.newQ, this, hx]
  · by_cases h : w' = w
    · rw [h]; exact hlt
    · exact H.fresh w' (by simpa [Decoder.newQ, h] using hw')

theorem Inv.newB {c : Cfg T R} {s : St T R L} {m : Regs R L} (H : Inv c s m) {w : Wire}
    (hw : s.wires w = none) (hlt : w.node < s.nodes.length) (r : R) (hs : c.single r = true) {ty : T}
    (hty : ty = c.bool ∨ ty = c.tbool) :
    Inv c (newB s w ty r) { m with b := setReg m.b r (eval s.nodes w) } := by
  refine ⟨?_, H.b.next r hs hw hty, fun w' hw' => ?_⟩
  · refine H.q.mono (.refl _) rfl fun w' x hx => ⟨?_, rfl⟩
    have : w' ≠ w := by rintro rfl; rw [hw] at hx; exact absurd hx (by simp)
    simp [Decoder.newB, this, hx]
  · by_cases h : w' = w
    · rw [h]; exact hlt
    · exact H.fresh w' (by simpa [Decoder.newB, h] using hw')

theorem Inv.newW {c : Cfg T R} {s : St T R L} {m : Regs R L} (H : Inv c s m) {w : Wire}
    (hw : s.wires w = none) (hlt : w.node < s.nodes.length) (ty : T) :
    Inv c (newW s w ty) m := by
  have hm : ∀ w' x, s.wires w' = some x → (Decoder.newW s w ty).wires w' = some x ∧
      eval s.nodes w' = eval s.nodes w' := by
    intro w' x hx
    have : w' ≠ w := by rintro rfl; rw [hw] at hx; exact absurd hx (by simp)
    exact ⟨by simp [Decoder.newW, this, hx], rfl⟩
  refine ⟨H.q.mono (.refl _) rfl hm, H.b.mono (.refl _) rfl hm, fun w' hw' => ?_⟩
  by_cases h : w' = w
  · rw [h]; exact hlt
  · exact H.fresh w' (by simpa [Decoder.newW, h] using hw')

theorem Inv.marks {c : Cfg T R} {s : St T R L} {m : Regs R L} (H : Inv c s m) (qi bi : List Nat) :
    Inv c { s with q := qi.foldl Half.mark s.q, b := bi.foldl Half.mark s.b } m :=
  ⟨H.q.mono (HExt.marks _ _) (marks_latest _ _) fun _ _ hx => ⟨hx, rfl⟩,
    H.b.mono (HExt.marks _ _) (marks_latest _ _) fun _ _ hx => ⟨hx, rfl⟩, H.fresh⟩

theorem Inv.none_of_ge {c : Cfg T R} {s : St T R L} {m : Regs R L} (H : Inv c s m) {w : Wire}
    (h : s.nodes.length ≤ w.node) : s.wires w = none := by
  cases hw : s.wires w with
  | none => rfl
  | some d => exact absurd (H.fresh w (by rw [hw]; simp)) (by omega)

theorem setReg_self (f : R → V L) (r : R) {v : V L} (h : f r = v) : setReg f r v = f := by
  funext r'
  unfold setReg
  split
  · next hr => rw [hr, h]
  · rfl

end

/-- The names of the registers. -/
def keysQ (s : St T R L) : List R := s.q.latest.map Prod.fst
def keysB (s : St T R L) : List R := s.b.latest.map Prod.fst

omit [DecidableEq T] in
theorem next_keys {h : Half R} {r : R} (hr : (lookupLatest r h.latest).isSome) (ws : List Wire) :
    (h.next r ws).latest.map Prod.fst = h.latest.map Prod.fst := by
  rw [lookup_isSome] at hr
  exact (insert_keys r _ h.latest).trans (if_pos hr)

/-! ### Looking for a register -/

/-- An argument carries the value of its register. -/
structure ArgQ (c : Cfg T R) (s : St T R L) (m : Regs R L) (x : Arg R) : Prop where
  holds : HoldsQ c s x.id (m.q x.reg)
  known : x.reg ∈ keysQ s

structure ArgB (c : Cfg T R) (s : St T R L) (m : Regs R L) (x : Arg R) : Prop where
  holds : HoldsB c s x.id (m.b x.reg)
  known : x.reg ∈ keysB s

/-- A step of the search: it changes nothing that can be observed. -/
structure Quiet (c : Cfg T R) (m : Regs R L) (s s' : St T R L) : Prop where
  inv : Inv c s' m
  ext : Ext s s'
  keysQ : keysQ s' = keysQ s
  keysB : keysB s' = keysB s
  obs : observe s'.nodes = observe s.nodes

theorem Quiet.refl {c : Cfg T R} {m : Regs R L} {s : St T R L} (H : Inv c s m) : Quiet c m s s :=
  ⟨H, .refl s, rfl, rfl, rfl⟩

theorem Quiet.trans {c : Cfg T R} {m : Regs R L} {s1 s2 s3 : St T R L} (a : Quiet c m s1 s2)
    (b : Quiet c m s2 s3) : Quiet c m s1 s3 :=
  ⟨b.inv, a.ext.trans b.ext, b.keysQ.trans a.keysQ, b.keysB.trans a.keysB, b.obs.trans a.obs⟩

theorem ArgQ.mono {c : Cfg T R} {s s' : St T R L} {m : Regs R L} {x : Arg R} (h : ArgQ c s m x)
    (H : Inv c s m) (he : Ext s s') (hk : keysQ s' = keysQ s) : ArgQ c s' m x :=
  ⟨h.holds.mono he.q fun w d hd => ⟨he.wires w d hd, he.eval w (H.fresh w (by rw [hd]; simp))⟩,
    by rw [hk]; exact h.known⟩

theorem ArgB.mono {c : Cfg T R} {s s' : St T R L} {m : Regs R L} {x : Arg R} (h : ArgB c s m x)
    (H : Inv c s m) (he : Ext s s') (hk : keysB s' = keysB s) : ArgB c s' m x :=
  ⟨h.holds.mono he.b fun w d hd => ⟨he.wires w d hd, he.eval w (H.fresh w (by rw [hd]; simp))⟩,
    by rw [hk]; exact h.known⟩

theorem singleQ {c : Cfg T R} {s : St T R L} {m : Regs R L} (H : Inv c s m) {r : R}
    (h : r ∈ keysQ s) : c.single r = true := H.q.single r ((lookup_isSome r _).mpr h)

theorem singleB {c : Cfg T R} {s : St T R L} {m : Regs R L} (H : Inv c s m) {r : R}
    (h : r ∈ keysB s) : c.single r = true := H.b.single r ((lookup_isSome r _).mpr h)

theorem takeQ_quiet {c : Cfg T R} {s : St T R L} {m : Regs R L} (H : Inv c s m) {x : Arg R}
    (hx : ArgQ c s m x) :
    Quiet c m s (takeQ c s x).2 ∧ eval (takeQ c s x).2.nodes (takeQ c s x).1 = m.q x.reg ∧
      (takeQ c s x).1.node < (takeQ c s x).2.nodes.length := by
  unfold takeQ
  obtain ⟨_, ⟨h1, h2⟩ | ⟨w, ty, h1, h2, h3, h4⟩⟩ := hx.holds
  · rw [h1]
    dsimp only
    have H1 := H.node ⟨.alloc, [], [], [c.qb]⟩
    have hn : s.wires ⟨s.nodes.length, 0⟩ = none := H.none_of_ge (Nat.le_refl _)
    have hv : eval (⟨.alloc, [], [], [c.qb]⟩ :: s.nodes : List (Node T L)) ⟨s.nodes.length, 0⟩ =
        m.q x.reg := by
      rw [h2, eval, if_pos rfl]
      rfl
    have hs := singleQ H hx.known
    have H2 := H1.newQ (w := ⟨s.nodes.length, 0⟩) hn (by simp) x.reg hs
    rw [hv, setReg_self _ _ rfl] at H2
    refine ⟨⟨H2, (Ext.node s _).trans (Ext.newQ (s := { s with nodes := _ :: s.nodes }) hn _ _),
      ?_, rfl, ?_⟩, hv, ?_⟩
    · exact next_keys ((lookup_isSome _ _).mpr hx.known) _
    · simp [newQ, observe]
    · simp [newQ]
  · rw [h1]
    exact ⟨.refl H, h4, H.fresh w (by rw [h2]; simp)⟩

theorem convB_quiet {c : Cfg T R} {s : St T R L} {m : Regs R L} (H : Inv c s m) {w : Wire}
    {r : R} (hr : r ∈ keysB s) (hw : ∃ ty, (ty = c.bool ∨ ty = c.tbool) ∧ ∃ id, s.wires w = some ⟨ty, [], [id]⟩)
    (hv : eval s.nodes w = m.b r) (id : Nat) (t : T) :
    Quiet c m s (convB c s w id r t).2 ∧
      eval (convB c s w id r t).2.nodes (convB c s w id r t).1 = m.b r ∧
      (convB c s w id r t).1.node < (convB c s w id r t).2.nodes.length := by
  obtain ⟨ty, hty, id', hd⟩ := hw
  have hlt := H.fresh w (by rw [hd]; simp)
  have hrec : recTy c s w = ty := by unfold recTy; rw [hd]
  unfold convB
  rw [hrec]
  by_cases hne : ty = t
  · rw [if_pos hne]
    exact ⟨.refl H, hv, hlt⟩
  · rw [if_neg hne]
    dsimp only
    have H1 := H.node (conv c w ty t)
    have hn : s.wires ⟨s.nodes.length, 0⟩ = none := H.none_of_ge (Nat.le_refl _)
    have hv1 : eval (conv c w ty t :: s.nodes : List (Node T L)) ⟨s.nodes.length, 0⟩ = m.b r := by
      rw [eval, if_pos rfl]
      unfold conv
      split <;> simp [portVal, srcVal, hv]
    have hs := singleB H hr
    have H2 := H1.newB (w := ⟨s.nodes.length, 0⟩) hn (by simp) r hs hty
    rw [hv1, setReg_self _ _ rfl] at H2
    have H3 := H2.marks [] [id]
    refine ⟨⟨H3, ((Ext.node s _).trans (Ext.newB (s := { s with nodes := _ :: s.nodes }) hn _ _)).trans
      (Ext.marks _ [] [id]), rfl, ?_, ?_⟩, hv1, ?_⟩
    · exact next_keys ((lookup_isSome _ _).mpr hr) [⟨s.nodes.length, 0⟩]
    · simp only [newB, observe]
      by_cases hb : ty = c.bool <;> simp [conv, hb]
    · simp [newB]

theorem takeB_quiet {c : Cfg T R} {s : St T R L} {m : Regs R L} (H : Inv c s m) {x : Arg R}
    (hx : ArgB c s m x) (t : T) :
    Quiet c m s (takeB c s x t).2 ∧ eval (takeB c s x t).2.nodes (takeB c s x t).1 = m.b x.reg ∧
      (takeB c s x t).1.node < (takeB c s x t).2.nodes.length := by
  unfold takeB
  obtain ⟨_, ⟨h1, h2⟩ | ⟨w, ty, h1, h2, h3, h4⟩⟩ := hx.holds
  · rw [h1]
    dsimp only
    have H1 := H.node ⟨.ff, [], [], [c.bool]⟩
    have hn : s.wires ⟨s.nodes.length, 0⟩ = none := H.none_of_ge (Nat.le_refl _)
    have hv : eval (⟨.ff, [], [], [c.bool]⟩ :: s.nodes : List (Node T L)) ⟨s.nodes.length, 0⟩ =
        m.b x.reg := by
      rw [h2, eval, if_pos rfl]
      rfl
    have hs := singleB H hx.known
    have H2 := H1.newB (w := ⟨s.nodes.length, 0⟩) hn (by simp) x.reg hs (.inl rfl)
    rw [hv, setReg_self _ _ rfl] at H2
    have hk := next_keys (h := s.b) ((lookup_isSome _ _).mpr hx.known) [⟨s.nodes.length, 0⟩]
    have hq : Quiet c m s (newB { s with nodes := ⟨.ff, [], [], [c.bool]⟩ :: s.nodes }
        ⟨s.nodes.length, 0⟩ c.bool x.reg) :=
      ⟨H2, (Ext.node s _).trans (Ext.newB (s := { s with nodes := _ :: s.nodes }) hn _ _),
        rfl, hk, by simp [newB, observe]⟩
    obtain ⟨h5, h6, h7⟩ := convB_quiet H2 (w := ⟨s.nodes.length, 0⟩) (r := x.reg)
      (by unfold keysB; rw [show (newB { s with nodes := ⟨.ff, [], [], [c.bool]⟩ :: s.nodes }
        ⟨s.nodes.length, 0⟩ c.bool x.reg).b = s.b.next x.reg [⟨s.nodes.length, 0⟩] from rfl, hk]
          exact hx.known)
      ⟨c.bool, .inl rfl, s.b.elems.length, by simp [newB]⟩ hv s.b.elems.length t
    exact ⟨hq.trans h5, h6, h7⟩
  · rw [h1]
    exact convB_quiet H hx.known ⟨ty, h3, x.id, h2⟩ h4 x.id t

/-- All arguments carry the values of their registers. -/
structure Args (c : Cfg T R) (s : St T R L) (m : Regs R L) (a : Rest R) : Prop where
  q : ∀ x ∈ a.q, ArgQ c s m x
  b : ∀ x ∈ a.b, ArgB c s m x

theorem Args.heads {c : Cfg T R} {s : St T R L} {m : Regs R L} {a : Rest R} (h : Args c s m a) :
    Heads c s a :=
  ⟨fun x xs hx => ⟨_, (h.q x (by rw [hx]; simp)).holds⟩,
    fun x xs hx => ⟨_, (h.b x (by rw [hx]; simp)).holds⟩⟩

theorem Args.mono {c : Cfg T R} {s s' : St T R L} {m : Regs R L} {a a' : Rest R}
    (h : Args c s m a) (H : Inv c s m) (hq : Quiet c m s s') (h1 : a'.q ⊆ a.q) (h2 : a'.b ⊆ a.b) :
    Args c s' m a' :=
  ⟨fun x hx => (h.q x (h1 hx)).mono H hq.ext hq.keysQ,
    fun x hx => (h.b x (h2 hx)).mono H hq.ext hq.keysB⟩

/-- What a successful search for a type returns. -/
inductive FindRes (c : Cfg T R) (m : Regs R L) (t : T) (a a' : Rest R) (u : Bool)
    (s' : St T R L) : Found T → Prop where
  | par (p : Nat) (h : c.param t = true) (hp : a.p = p :: a'.p) (hq : a'.q = a.q) (hb : a'.b = a.b) :
      FindRes c m t a a' u s' (.par p)
  | gap (h : c.param t = false) (h1 : c.supported t = false) (hu : u = true) (ha : a' = a) :
      FindRes c m t a a' u s' .unsupported
  | qubit (w : Wire) (d : WireData T) (x : Arg R) (h : t = c.qb) (hx : a.q = x :: a'.q)
      (hb : a'.b = a.b) (hp : a'.p = a.p) (hv : eval s'.nodes w = m.q x.reg)
      (hlt : w.node < s'.nodes.length) :
      FindRes c m t a a' u s' (.reg w d)
  | bit (w : Wire) (d : WireData T) (x : Arg R) (h : t = c.bool ∨ t = c.tbool) (hx : a.b = x :: a'.b)
      (hq : a'.q = a.q) (hp : a'.p = a.p) (hv : eval s'.nodes w = m.b x.reg)
      (hlt : w.node < s'.nodes.length) :
      FindRes c m t a a' u s' (.reg w d)

theorem find_spec {c : Cfg T R} (hc : c.Simple) {s s' : St T R L} {m : Regs R L} (H : Inv c s m)
    {t : T} {a a' : Rest R} (ha : Args c s m a) {u : Bool} {f : Found T}
    (h : find c s t a u = .ok (f, a', s')) :
    Quiet c m s s' ∧ FindRes c m t a a' u s' f ∧ Args c s' m a' := by
  cases hp : c.param t with
  | true =>
    rw [find_param c s a u hp] at h
    cases hap : a.p with
    | nil => rw [hap] at h; simp at h
    | cons p ps =>
      rw [hap] at h
      simp only [Except.ok.injEq, Prod.mk.injEq] at h
      obtain ⟨rfl, rfl, rfl⟩ := h
      exact ⟨.refl H, .par p hp (by rw [hap]) rfl rfl, ha.mono H (.refl H) (fun _ h => h) (fun _ h => h)⟩
  | false =>
    cases hs : c.supported t with
    | false =>
      rw [find_unsupported c s a u hp hs] at h
      cases u with
      | false => simp at h
      | true =>
        simp only [if_true, Except.ok.injEq, Prod.mk.injEq] at h
        obtain ⟨rfl, rfl, rfl⟩ := h
        exact ⟨.refl H, .gap hp hs rfl rfl, ha⟩
    | true =>
      rcases hc.only t hs with rfl | ht
      · cases hq : a.q with
        | nil => rw [find_qb_nil hc ha.heads hq] at h; simp at h
        | cons x xs =>
          have hax := ha.q x (by rw [hq]; simp)
          obtain ⟨d, hd⟩ := find_qb hc ha.heads hq (singleQ H hax.known) u
          rw [hd] at h
          split at h
          · simp at h
          · simp only [Except.ok.injEq, Prod.mk.injEq] at h
            obtain ⟨rfl, rfl, rfl⟩ := h
            obtain ⟨h1, h2, h3⟩ := takeQ_quiet H hax
            exact ⟨h1, .qubit _ d x rfl hq rfl rfl h2 h3,
              ha.mono H h1 (by rw [hq]; exact fun _ h => List.mem_cons_of_mem _ h) (fun _ h => h)⟩
      · cases hq : a.b with
        | nil => rw [find_bit_nil hc ha.heads hq u ht] at h; simp at h
        | cons x xs =>
          have hax := ha.b x (by rw [hq]; simp)
          obtain ⟨d, hd⟩ := find_bit hc ha.heads H.fresh hq (singleB H hax.known) u ht
          rw [hd] at h
          split at h
          · simp at h
          · simp only [Except.ok.injEq, Prod.mk.injEq] at h
            obtain ⟨rfl, rfl, rfl⟩ := h
            obtain ⟨h1, h2, h3⟩ := takeB_quiet H hax t
            exact ⟨h1, .bit _ d x ht hq rfl rfl h2 h3,
              ha.mono H h1 (fun _ h => h) (by rw [hq]; exact fun _ h => List.mem_cons_of_mem _ h)⟩

/-! ### The inputs of a command -/

theorem feed_cons (c : Cfg T R) (t : T) (ts : List T) (qs bs : List (V L)) (ps : List Nat) :
    feed c (t :: ts) qs bs ps =
      if c.param t then (match ps with | [] => .none | p :: _ => .par p) :: feed c ts qs bs ps.tail
      else if t = c.qb then qs.headD .none :: feed c ts qs.tail bs ps
      else if t = c.bool ∨ t = c.tbool then bs.headD .none :: feed c ts qs bs.tail ps
      else .none :: feed c ts qs bs ps := rfl

theorem findAll_params {c : Cfg T R} {ts : List T} (hts : ∀ t ∈ ts, c.param t = true)
    {s s' : St T R L} {a : Rest R} {ws : List Wire} {ps : List Nat}
    (h : findAll c s ts a = .ok (ws, ps, s')) : ws = [] := by
  induction ts generalizing s s' a ws ps with
  | nil =>
    simp only [findAll, Except.ok.injEq, Prod.mk.injEq] at h
    exact h.1.symm
  | cons t ts ih =>
    rw [findAll, find_param c s a false (hts t (by simp))] at h
    cases hap : a.p with
    | nil => rw [hap] at h; simp at h
    | cons p pp =>
      rw [hap] at h
      dsimp only at h
      cases hf : findAll c s ts { a with p := pp } with
      | error e => rw [hf] at h; simp at h
      | ok y =>
        obtain ⟨ws', ps', s2⟩ := y
        rw [hf] at h
        simp only [Except.ok.injEq, Prod.mk.injEq] at h
        rw [← h.1]
        exact ih (fun t ht => hts t (by simp [ht])) hf

theorem findAll_spec {c : Cfg T R} (hc : c.Simple) {ts : List T} {s s' : St T R L} {m : Regs R L}
    (H : Inv c s m) {a : Rest R} (ha : Args c s m a) {ws : List Wire} {ps : List Nat}
    (h : findAll c s ts a = .ok (ws, ps, s')) :
    Quiet c m s s' ∧ (∀ w ∈ ws, w.node < s'.nodes.length) ∧
      (c.paramsLast ts → ws.map (eval s'.nodes) ++ ps.map .par =
        feed c ts (a.q.map fun x => m.q x.reg) (a.b.map fun x => m.b x.reg) a.p) := by
  induction ts generalizing s s' a ws ps with
  | nil =>
    simp only [findAll, Except.ok.injEq, Prod.mk.injEq] at h
    obtain ⟨rfl, rfl, rfl⟩ := h
    exact ⟨.refl H, by simp, fun _ => rfl⟩
  | cons t ts ih =>
    rw [findAll] at h
    cases hf : find c s t a false with
    | error e => rw [hf] at h; simp at h
    | ok y =>
      obtain ⟨f, a', s1⟩ := y
      rw [hf] at h
      dsimp only at h
      obtain ⟨hq, hr, ha'⟩ := find_spec hc H ha hf
      cases hg : findAll c s1 ts a' with
      | error e => rw [hg] at h; simp at h
      | ok z =>
        obtain ⟨ws', ps', s2⟩ := z
        rw [hg] at h
        dsimp only at h
        obtain ⟨hq2, hlt, hfd⟩ := ih hq.inv ha' hg
        cases hr with
        | par p hp hap haq hab =>
          simp only [Except.ok.injEq, Prod.mk.injEq] at h
          obtain ⟨rfl, rfl, rfl⟩ := h
          refine ⟨hq.trans hq2, hlt, fun hl => ?_⟩
          have hw := findAll_params (hl.1 hp) hg
          have := hfd hl.2
          rw [hw] at this ⊢
          rw [feed_cons, if_pos hp, hap, ← haq, ← hab]
          simp only [List.tail_cons]
          rw [← this]
          rfl
        | gap _ _ hu _ => exact absurd hu (by simp)
        | qubit w d x ht hax hab hap hv hwlt =>
          simp only [Except.ok.injEq, Prod.mk.injEq] at h
          obtain ⟨rfl, rfl, rfl⟩ := h
          refine ⟨hq.trans hq2, ?_, fun hl => ?_⟩
          · intro w' hw'
            rcases List.mem_cons.mp hw' with rfl | hw'
            · exact Nat.lt_of_lt_of_le hwlt hq2.ext.len
            · exact hlt w' hw'
          · have := hfd hl.2
            rw [feed_cons, if_neg (by rw [ht]; simp [param_false hc (sup_qb hc)]), if_pos ht, hax, ← hab, ← hap]
            simp only [List.map_cons, List.headD_cons, List.tail_cons, List.cons_append]
            rw [← this, hq2.ext.eval w hwlt, hv]
        | bit w d x ht hax haq hap hv hwlt =>
          simp only [Except.ok.injEq, Prod.mk.injEq] at h
          obtain ⟨rfl, rfl, rfl⟩ := h
          refine ⟨hq.trans hq2, ?_, fun hl => ?_⟩
          · intro w' hw'
            rcases List.mem_cons.mp hw' with rfl | hw'
            · exact Nat.lt_of_lt_of_le hwlt hq2.ext.len
            · exact hlt w' hw'
          · have := hfd hl.2
            rw [feed_cons, if_neg (by simp [param_false hc (sup_bit hc ht)]), if_neg (qb_ne hc ht), if_pos ht,
              hax, ← haq, ← hap]
            simp only [List.map_cons, List.headD_cons, List.tail_cons, List.cons_append]
            rw [← this, hq2.ext.eval w hwlt, hv]

theorem finishOutputs_spec {c : Cfg T R} (hc : c.Simple) {ts : List T} {s s' : St T R L}
    {m : Regs R L} (H : Inv c s m) {a a' : Rest R} (ha : Args c s m a) {ss : List Src}
    (h : finishOutputs c s ts a = .ok (ss, a', s')) :
    Quiet c m s s' ∧ Args c s' m a' ∧ ss.map (srcVal (eval s'.nodes)) =
        feed c ts (a.q.map fun x => m.q x.reg) (a.b.map fun x => m.b x.reg) a.p := by
  induction ts generalizing s s' a ss a' with
  | nil =>
    simp only [finishOutputs, Except.ok.injEq, Prod.mk.injEq] at h
    obtain ⟨rfl, rfl, rfl⟩ := h
    exact ⟨.refl H, ha, rfl⟩
  | cons t ts ih =>
    rw [finishOutputs] at h
    cases hf : find c s t a true with
    | error e => rw [hf] at h; simp at h
    | ok y =>
      obtain ⟨f, a1, s1⟩ := y
      rw [hf] at h
      dsimp only at h
      obtain ⟨hq, hr, ha'⟩ := find_spec hc H ha hf
      cases hg : finishOutputs c s1 ts a1 with
      | error e => rw [hg] at h; simp at h
      | ok z =>
        obtain ⟨ws', ps', s2⟩ := z
        rw [hg] at h
        simp only [Except.ok.injEq, Prod.mk.injEq] at h
        obtain ⟨rfl, rfl, rfl⟩ := h
        obtain ⟨hq2, ha2, hfd⟩ := ih hq.inv ha' hg
        refine ⟨hq.trans hq2, ha2, ?_⟩
        rw [List.map_cons, hfd]
        cases hr with
        | par p hp hap haq hab =>
          rw [feed_cons, if_pos hp, hap, ← haq, ← hab]
          rfl
        | gap h1 h2 hu hax =>
          rw [feed_cons, if_neg (by simp [h1]), if_neg, if_neg, hax]
          · rfl
          · intro ht
            rw [sup_bit hc ht] at h2
            exact absurd h2 (by simp)
          · rintro rfl
            rw [sup_qb hc] at h2
            exact absurd h2 (by simp)
        | qubit w d x ht hax hab hap hv hwlt =>
          rw [feed_cons, if_neg (by rw [ht]; simp [param_false hc (sup_qb hc)]), if_pos ht, hax, ← hab, ← hap]
          simp only [List.map_cons, List.headD_cons, List.tail_cons, srcVal]
          rw [hq2.ext.eval w hwlt, hv]
        | bit w d x ht hax haq hap hv hwlt =>
          rw [feed_cons, if_neg (by simp [param_false hc (sup_bit hc ht)]), if_neg (qb_ne hc ht), if_pos ht,
            hax, ← haq, ← hap]
          simp only [List.map_cons, List.headD_cons, List.tail_cons, srcVal]
          rw [hq2.ext.eval w hwlt, hv]

end Verif.Decoder
