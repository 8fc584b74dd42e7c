import Verif.Lemmas.DecoderOnce

/-!
# Decoding succeeds on circuits that fit
-/

namespace Verif.Decoder

variable {T R L : Type} [DecidableEq T] [DecidableEq R]

/-- The latest bits outside `P` are not outdated. -/
def LiveB (s : St T R L) (P : List R) : Prop :=
  ∀ r id, r ∉ P → lookupLatest r s.b.latest = some id →
    (s.b.elems[id]?).map Elem.outdated = some false

/-- The argument is a version of its register. -/
def Version (s : St T R L) (x : Arg R) : Prop := s.b.regOf x.id = some x.reg

omit [DecidableEq T] in
theorem next_live' {h : Half R} {r : R} {ws : List Wire} {P P' : List R}
    (hl : ∀ r id, r ∉ P → lookupLatest r h.latest = some id →
      (h.elems[id]?).map Elem.outdated = some false)
    (hr : ∀ r id, lookupLatest r h.latest = some id → h.regOf id = some r)
    (hlen : ∀ r id, lookupLatest r h.latest = some id → id < h.elems.length)
    (hP : ∀ r', r' ∉ P' → r' = r ∨ r' ∉ P) (r' : R) (id : Nat) (hr' : r' ∉ P')
    (hlook : lookupLatest r' (h.next r ws).latest = some id) :
    ((h.next r ws).elems[id]?).map Elem.outdated = some false := by
  rw [next_latest] at hlook
  by_cases hrr : r' = r
  · rw [if_pos hrr] at hlook
    injection hlook with hlook
    subst hlook
    unfold Half.next
    cases hp : lookupLatest r h.latest with
    | none => simp
    | some p =>
      have := hlen r p hp
      dsimp only
      rw [List.getElem?_modify]
      have hne : p ≠ h.elems.length := by omega
      simp [hne]
  · rw [if_neg hrr] at hlook
    have hr'' : r' ∉ P := (hP r' hr').resolve_left hrr
    have h1 := hl r' id hr'' hlook
    have h2 := hr r' id hlook
    have hid := hlen r' id hlook
    unfold Half.next
    cases hp : lookupLatest r h.latest with
    | none =>
      dsimp only
      rw [List.getElem?_append_left hid]
      exact h1
    | some p =>
      have : p ≠ id := by
        rintro rfl
        have h3 := hr r p hp
        rw [h2] at h3
        exact hrr (Option.some.inj h3)
      dsimp only
      rw [List.getElem?_modify, List.getElem?_append_left hid]
      simpa [this] using h1

theorem LiveB.newB {c : Cfg T R} {s : St T R L} {m : Regs R L} (H : Inv c s m) {P P' : List R}
    (h : LiveB s P) (w : Wire) (ty : T) (r : R) (hP : ∀ r', r' ∉ P' → r' = r ∨ r' ∉ P) :
    LiveB (newB s w ty r) P' :=
  fun r' id hr' hlook => next_live' h H.b.reg (fun r id hl => (H.b.holds r id hl).1) hP r' id hr' hlook

omit [DecidableEq T] in
theorem mark_outdated (h : Half R) (id i : Nat) (hne : id ≠ i) :
    (h.mark id).elems[i]? = h.elems[i]? := by
  unfold Half.mark
  dsimp only
  rw [List.getElem?_modify]
  simp [hne]

omit [DecidableEq T] in
theorem marks_outdated (h : Half R) (ids : List Nat) (i : Nat) (hne : i ∉ ids) :
    (ids.foldl Half.mark h).elems[i]? = h.elems[i]? := by
  induction ids generalizing h with
  | nil => rfl
  | cons id ids ih =>
    rw [List.mem_cons, not_or] at hne
    rw [List.foldl_cons, ih _ hne.2, mark_outdated h id i (fun he => hne.1 he.symm)]

theorem LiveB.marks {c : Cfg T R} {s : St T R L} {m : Regs R L} (H : Inv c s m)
    (h : LiveB s []) {xs : List (Arg R)} (hx : ∀ x ∈ xs, Version s x) (ns : List (Node T L)) :
    LiveB { s with nodes := ns, b := (xs.map Arg.id).foldl Half.mark s.b } (xs.map Arg.reg) := by
  intro r id hr hl
  have hl : lookupLatest r ((xs.map Arg.id).foldl Half.mark s.b).latest = some id := hl
  rw [marks_latest] at hl
  show (((xs.map Arg.id).foldl Half.mark s.b).elems[id]?).map Elem.outdated = some false
  rw [marks_outdated]
  · exact h r id (by simp) hl
  · intro hm
    obtain ⟨x, hx1, hx2⟩ := List.mem_map.mp hm
    have h1 := hx x hx1
    unfold Version at h1
    rw [hx2, H.b.reg r id hl] at h1
    exact hr (List.mem_map.mpr ⟨x, hx1, (Option.some.inj h1).symm⟩)

theorem Version.mono {s s' : St T R L} {x : Arg R} (h : Version s x) (he : Ext s s') :
    Version s' x := by
  unfold Version at h ⊢
  have hlt : x.id < s.b.elems.length := by
    by_contra hge
    unfold Half.regOf at h
    rw [List.getElem?_eq_none (by omega)] at h
    simp at h
  rw [he.b.reg x.id hlt]
  exact h

theorem convB_live {c : Cfg T R} {s : St T R L} {m : Regs R L} (H : Inv c s m)
    (h : LiveB s []) (w : Wire) {id : Nat} {r : R} (hr : s.b.regOf id = some r) (t : T) :
    LiveB (convB c s w id r t).2 [] := by
  unfold convB
  split
  · exact h
  · dsimp only
    intro r' id' _ hl
    have hlt : id < s.b.elems.length := by
      by_contra hge
      unfold Half.regOf at hr
      rw [List.getElem?_eq_none (by omega)] at hr
      simp at hr
    have hl : lookupLatest r' (s.b.next r [⟨s.nodes.length, 0⟩]).latest = some id' := hl
    show (((s.b.next r [⟨s.nodes.length, 0⟩]).mark id).elems[id']?).map Elem.outdated = some false
    have hne : id ≠ id' := by
      rintro rfl
      rw [next_latest] at hl
      split at hl
      · injection hl with hl
        omega
      · next hrr =>
        have := H.b.reg r' id hl
        rw [hr] at this
        exact hrr (Option.some.inj this).symm
    rw [mark_outdated _ _ _ hne]
    exact next_live' h H.b.reg (fun r id hl => (H.b.holds r id hl).1) (P' := []) (by simp) r' id'
      (by simp) hl

theorem takeB_live {c : Cfg T R} {s : St T R L} {m : Regs R L} (H : Inv c s m)
    (h : LiveB s []) {x : Arg R} (hx : ArgB c s m x) (hv : Version s x) (t : T) :
    LiveB (takeB c s x t).2 [] := by
  unfold takeB
  obtain ⟨_, ⟨h1, h2⟩ | ⟨w, ty, h1, h2, h3, h4⟩⟩ := hx.holds
  · rw [h1]
    dsimp only
    have H1 := (H.node ⟨.ff, [], [], [c.bool]⟩)
    have hn : s.wires ⟨s.nodes.length, 0⟩ = none := H.none_of_ge (Nat.le_refl _)
    have H2 := H1.newB (w := ⟨s.nodes.length, 0⟩) hn (by simp) x.reg (singleB H hx.known) (.inl rfl)
    have h0 : LiveB { s with nodes := (⟨.ff, [], [], [c.bool]⟩ : Node T L) :: s.nodes } [] := h
    refine convB_live H2 (LiveB.newB H1 h0 _ _ _ (by simp)) _ ?_ _
    show (s.b.next x.reg _).regOf s.b.elems.length = some x.reg
    rw [next_regOf, if_pos rfl]
  · rw [h1]
    exact convB_live H h w hv t

omit [DecidableEq T] in
theorem takeQ_b (c : Cfg T R) (s : St T R L) (x : Arg R) : (takeQ c s x).2.b = s.b := by
  unfold takeQ
  split <;> rfl

theorem find_live {c : Cfg T R} (hc : c.Simple) {s s' : St T R L} {m : Regs R L} (H : Inv c s m)
    {t : T} {a a' : Rest R} (ha : Args c s m a) {u : Bool} {f : Found T}
    (hl : LiveB s []) (hv : ∀ x ∈ a.b, Version s x)
    (h : find c s t a u = .ok (f, a', s')) : LiveB s' [] := by
  cases find_cases hc H ha h with
  | par p hp hs hq hb => subst hs; exact hl
  | gap hs1 hs hq => subst hs; exact hl
  | qubit d x ht hx hb hs =>
    subst hs
    intro r id hr
    rw [takeQ_b]
    exact hl r id hr
  | bit d x ht hx hq hs =>
    subst hs
    exact takeB_live H hl (ha.b x (by rw [hx]; simp)) (hv x (by rw [hx]; simp)) t

/-- What the search needs to succeed. -/
structure Enough (c : Cfg T R) (ts : List T) (a : Rest R) : Prop where
  q : c.countQ ts ≤ a.q.length
  b : c.countB ts ≤ a.b.length
  p : c.countP ts ≤ a.p.length
  oq : ∀ x ∈ a.q, x.outdated = false
  ob : ∀ x ∈ a.b, x.outdated = false

theorem find_ok {c : Cfg T R} (hc : c.Simple) {s : St T R L} {m : Regs R L} (H : Inv c s m)
    {t : T} {ts : List T} {a : Rest R} (ha : Args c s m a) (he : Enough c (t :: ts) a) {u : Bool}
    (ht : u = true ∨ t = c.qb ∨ (t = c.bool ∨ t = c.tbool) ∨ c.param t = true) :
    ∃ f a' s', find c s t a u = .ok (f, a', s') ∧ Enough c ts a' ∧
      (u = true ∨ f ≠ .unsupported) ∧ a'.b ⊆ a.b := by
  obtain ⟨e1, e2, e3, e4, e5⟩ := he
  simp only [Cfg.countQ, Cfg.countB, Cfg.countP, List.map_cons, List.sum_cons,
    List.countP_cons] at e1 e2 e3
  cases hp : c.param t with
  | true =>
    rw [find_param c s a u hp]
    have hs := hc.param t hp
    rw [hp] at e3
    cases hap : a.p with
    | nil => rw [hap] at e3; simp at e3
    | cons p ps =>
      rw [hap] at e3
      simp only [if_true, List.length_cons] at e3
      refine ⟨_, _, _, rfl, ⟨?_, ?_, ?_, e4, e5⟩, .inr (by simp), fun _ h => h⟩
      · unfold Cfg.countQ; dsimp only; omega
      · unfold Cfg.countB; dsimp only; omega
      · unfold Cfg.countP; dsimp only; omega
  | false =>
    rw [hp] at e3
    simp only [Bool.false_eq_true, if_false, Nat.add_zero] at e3
    cases hs : c.supported t with
    | false =>
      have hu : u = true := by
        rcases ht with h | rfl | h | h
        · exact h
        · rw [sup_qb hc] at hs; exact absurd hs (by simp)
        · rw [sup_bit hc h] at hs; exact absurd hs (by simp)
        · rw [hp] at h; exact absurd h (by simp)
      subst hu
      rw [find_unsupported c s a true hp hs]
      refine ⟨_, _, _, rfl, ⟨?_, ?_, e3, e4, e5⟩, .inl rfl, fun _ h => h⟩
      · unfold Cfg.countQ; omega
      · unfold Cfg.countB; omega
    | true =>
      rcases hc.only t hs with rfl | ht
      · rw [hc.qb_q] at e1
        rw [hc.qb_b] at e2
        cases hq : a.q with
        | nil => rw [hq] at e1; simp at e1
        | cons x xs =>
          obtain ⟨d, hd⟩ := find_qb hc ha.heads hq (singleQ H (ha.q x (by rw [hq]; simp)).known) u
          rw [e4 x (by rw [hq]; simp)] at hd
          simp only [Bool.false_eq_true, if_false] at hd
          rw [hq] at e1
          refine ⟨_, _, _, hd, ⟨?_, ?_, e3, fun y hy => e4 y (by rw [hq]; exact List.mem_cons_of_mem _ hy), e5⟩,
            .inr (by simp), fun _ h => h⟩
          · unfold Cfg.countQ; dsimp only; simp only [List.length_cons] at e1; omega
          · unfold Cfg.countB; dsimp only; omega
      · rw [bit_q hc ht] at e1
        rw [bit_b hc ht] at e2
        cases hq : a.b with
        | nil => rw [hq] at e2; simp at e2
        | cons x xs =>
          obtain ⟨d, hd⟩ := find_bit hc ha.heads H.fresh hq
            (singleB H (ha.b x (by rw [hq]; simp)).known) u ht
          rw [e5 x (by rw [hq]; simp)] at hd
          simp only [Bool.false_eq_true, if_false] at hd
          rw [hq] at e2
          refine ⟨_, _, _, hd, ⟨?_, ?_, e3, e4, fun y hy => e5 y (by rw [hq]; exact List.mem_cons_of_mem _ hy)⟩,
            .inr (by simp), fun y hy => by simp [hy]⟩
          · unfold Cfg.countQ; dsimp only; omega
          · unfold Cfg.countB; dsimp only; simp only [List.length_cons] at e2; omega

theorem findAll_ok {c : Cfg T R} (hc : c.Simple) {ts : List T} {s : St T R L} {m : Regs R L}
    (H : Inv c s m) {a : Rest R} (ha : Args c s m a) (he : Enough c ts a)
    (hl : LiveB s []) (hv : ∀ x ∈ a.b, Version s x)
    (ht : ∀ t ∈ ts, t = c.qb ∨ (t = c.bool ∨ t = c.tbool) ∨ c.param t = true) :
    ∃ ws ps s', findAll c s ts a = .ok (ws, ps, s') ∧ LiveB s' [] := by
  induction ts generalizing s a with
  | nil => exact ⟨[], [], s, rfl, hl⟩
  | cons t ts ih =>
    rw [findAll]
    obtain ⟨f, a', s1, hf, he', hu, hsub⟩ := find_ok hc H ha he (u := false) (.inr (ht t (by simp)))
    obtain ⟨hq, hr, ha'⟩ := find_spec hc H ha hf
    obtain ⟨ws, ps, s2, hg, hl2⟩ := ih hq.inv ha' he' (find_live hc H ha hl hv hf)
      (fun x hx => (hv x (hsub hx)).mono hq.ext) (fun t ht' => ht t (by simp [ht']))
    rw [hf]
    dsimp only
    rw [hg]
    dsimp only
    cases f with
    | unsupported => simp at hu
    | reg w d => exact ⟨_, _, _, rfl, hl2⟩
    | par p => exact ⟨_, _, _, rfl, hl2⟩

theorem finishOutputs_ok {c : Cfg T R} (hc : c.Simple) {ts : List T} {s : St T R L} {m : Regs R L}
    (H : Inv c s m) {a : Rest R} (ha : Args c s m a) (he : Enough c ts a) :
    ∃ y, finishOutputs c s ts a = .ok y := by
  induction ts generalizing s a with
  | nil => exact ⟨_, rfl⟩
  | cons t ts ih =>
    rw [finishOutputs]
    obtain ⟨f, a', s1, hf, he', _, _⟩ := find_ok hc H ha he (u := true) (.inl rfl)
    obtain ⟨hq, hr, ha'⟩ := find_spec hc H ha hf
    obtain ⟨⟨ss, a'', s2⟩, hy⟩ := ih hq.inv ha' he'
    rw [hf]
    dsimp only
    rw [hy]
    exact ⟨_, rfl⟩

theorem registerOutputs_ok {c : Cfg T R} (hc : c.Simple) {ts : List T} {node port : Nat}
    {s : St T R L} {m : Regs R L} (H : Inv c s m) {qs bs : List (Arg R)} {P : List R}
    (hl : LiveB s P) (hP : ∀ r ∈ P, r ∈ bs.map Arg.reg)
    (hcq : c.countQ ts = qs.length) (hcb : c.countB ts = bs.length)
    (hq : ∀ x ∈ qs, x.reg ∈ keysQ s) (hb : ∀ x ∈ bs, x.reg ∈ keysB s)
    (hlt : node < s.nodes.length)
    (hn : ∀ p, port ≤ p → s.wires ⟨node, p⟩ = none) :
    ∃ s', registerOutputs c node s port ts qs bs = .ok s' ∧ LiveB s' [] := by
  induction ts generalizing s m port qs bs P with
  | nil =>
    simp only [Cfg.countQ, Cfg.countB, List.map_nil, List.sum_nil] at hcq hcb
    have hqs : qs = [] := List.eq_nil_of_length_eq_zero hcq.symm
    have hbs : bs = [] := List.eq_nil_of_length_eq_zero hcb.symm
    subst hqs hbs
    refine ⟨_, rfl, ?_⟩
    intro r id _ hlook
    exact hl r id (fun hr => by simpa using hP r hr) hlook
  | cons t ts ih =>
    rw [registerOutputs]
    simp only [Cfg.countQ, Cfg.countB, List.map_cons, List.sum_cons] at hcq hcb
    rw [if_neg (by omega)]
    have hn0 := hn port (Nat.le_refl _)
    have hstep : ∀ p, port + 1 ≤ p → (⟨node, p⟩ : Wire) ≠ ⟨node, port⟩ := by
      intro p hp he
      injection he with _ he
      omega
    by_cases ht : t = c.qb
    · subst ht
      rw [hc.qb_q] at hcq ⊢
      rw [hc.qb_b] at hcb ⊢
      cases qs with
      | nil => simp at hcq
      | cons x xs =>
        have hx := hq x (by simp)
        simp only [List.take_succ_cons, List.take_zero, List.map_cons, List.map_nil,
          List.drop_succ_cons, List.drop_zero]
        rw [trackWire_q _ _ _ _ _ (singleQ H hx)]
        dsimp only
        have hk : keysQ (newQ s ⟨node, port⟩ c.qb x.reg) = keysQ s :=
          next_keys ((lookup_isSome _ _).mpr hx) _
        have H1 := H.newQ hn0 hlt x.reg (singleQ H hx)
        refine ih H1 (P := P) (fun r id hr hlook => hl r id hr hlook) hP ?_ ?_
          (fun y hy => by rw [hk]; exact hq y (by simp [hy])) hb hlt
          (fun p hp => by simp [newQ, hstep p hp, hn p (by omega)])
        · unfold Cfg.countQ; simp only [List.length_cons] at hcq; omega
        · unfold Cfg.countB; omega
    · by_cases hbt : t = c.bool ∨ t = c.tbool
      · rw [bit_q hc hbt] at hcq ⊢
        rw [bit_b hc hbt] at hcb ⊢
        cases bs with
        | nil => simp at hcb
        | cons x xs =>
          have hx := hb x (by simp)
          simp only [List.take_succ_cons, List.take_zero, List.map_cons, List.map_nil,
            List.drop_succ_cons, List.drop_zero]
          rw [trackWire_b _ _ _ _ _ (singleB H hx)]
          dsimp only
          have hk : keysB (newB s ⟨node, port⟩ t x.reg) = keysB s :=
            next_keys ((lookup_isSome _ _).mpr hx) _
          have H1 := H.newB hn0 hlt x.reg (singleB H hx) hbt
          refine ih H1 (P := P.filter (· ≠ x.reg)) (LiveB.newB H hl _ _ _ ?_) ?_ ?_ ?_ hq
            (fun y hy => by rw [hk]; exact hb y (by simp [hy])) hlt
            (fun p hp => by simp [newB, hstep p hp, hn p (by omega)])
          · intro r' hr'
            by_cases he : r' = x.reg
            · exact .inl he
            · right
              intro hm
              exact hr' (by simp [hm, he])
          · intro r hr
            simp only [ne_eq, decide_not, List.mem_filter, Bool.not_eq_eq_eq_not, Bool.not_true,
              decide_eq_false_iff_not] at hr
            have := hP r hr.1
            rw [List.map_cons, List.mem_cons] at this
            exact this.resolve_left hr.2
          · unfold Cfg.countQ; omega
          · unfold Cfg.countB; simp only [List.length_cons] at hcb; omega
      · obtain ⟨c1, c2⟩ := counts_other hc ht hbt
        rw [c1] at hcq ⊢
        rw [c2] at hcb ⊢
        simp only [List.take_zero, List.map_nil, List.drop_zero]
        rw [trackWire_n]
        dsimp only
        refine ih (H.newW hn0 hlt t) (P := P) (fun r id hr hlook => hl r id hr hlook) hP ?_ ?_ hq hb
          hlt (fun p hp => by simp [newW, hstep p hp, hn p (by omega)])
        · unfold Cfg.countQ; omega
        · unfold Cfg.countB; omega

theorem cmd_ok {c : Cfg T R} (hc : c.Simple) {s : St T R L} {m : Regs R L} (H : Inv c s m)
    (hlin : Lin c s [] fun _ => False) (hl : LiveB s [])
    (l : L) {sigIn sigOut : List T} {qs inB outB : List (Arg R)} {ps : List Nat}
    (hq : ∀ x ∈ qs, Latest s.q x) (hi : ∀ x ∈ inB, Latest s.b x) (ho : ∀ x ∈ outB, Latest s.b x)
    (hty : ∀ t ∈ sigIn, t = c.qb ∨ (t = c.bool ∨ t = c.tbool) ∨ c.param t = true)
    (h1 : c.countQ sigIn = qs.length) (h2 : c.countB sigIn = inB.length)
    (h3 : c.countP sigIn = ps.length) (h4 : c.countQ sigOut = qs.length)
    (h5 : c.countB sigOut = outB.length) (back : ∀ r ∈ inB.map Arg.reg, r ∈ outB.map Arg.reg)
    (mk : Bool) :
    ∃ ws pp s1 s', findAll c s sigIn ⟨qs, inB, ps⟩ = .ok (ws, pp, s1) ∧
      registerOutputs c s1.nodes.length
        { s1 with
          nodes := (⟨.cmd l, ws.map .val ++ pp.map .par, sigIn, sigOut⟩ : Node T L) :: s1.nodes
          b := (if mk then inB.map Arg.id else []).foldl Half.mark s1.b } 0 sigOut qs outB = .ok s' ∧
      LiveB s' [] := by
  have hver : ∀ x ∈ inB, Version s x := fun x hx => by
    unfold Version Half.regOf
    rw [(hi x hx).elem]
    rfl
  have hargs : Args c s m ⟨qs, inB, ps⟩ :=
    ⟨fun x hx => (hq x hx).argQ H, fun x hx => (hi x hx).argB H⟩
  have hen : Enough c sigIn ⟨qs, inB, ps⟩ := by
    refine ⟨Nat.le_of_eq h1, Nat.le_of_eq h2, Nat.le_of_eq h3,
      fun x hx => Latest.fresh hlin (hq x hx), fun x hx => ?_⟩
    have := hl x.reg x.id (by simp) (hi x hx).look
    rw [(hi x hx).elem] at this
    simpa using this
  obtain ⟨ws, pp, s1, hf, hl1⟩ := findAll_ok hc H hargs hen hl hver hty
  obtain ⟨g1, g2, _⟩ := findAll_spec hc H hargs hf
  have H1 := (g1.inv.node (⟨.cmd l, ws.map .val ++ pp.map .par, sigIn, sigOut⟩ : Node T L)).marks []
    (if mk then inB.map Arg.id else [])
  have hkB : keysB { s1 with
      nodes := (⟨.cmd l, ws.map .val ++ pp.map .par, sigIn, sigOut⟩ : Node T L) :: s1.nodes
      b := (if mk then inB.map Arg.id else []).foldl Half.mark s1.b } = keysB s1 :=
    congrArg (List.map Prod.fst) (marks_latest _ _)
  have hlive : LiveB { s1 with
      nodes := (⟨.cmd l, ws.map .val ++ pp.map .par, sigIn, sigOut⟩ : Node T L) :: s1.nodes
      b := (if mk then inB.map Arg.id else []).foldl Half.mark s1.b } (inB.map Arg.reg) := by
    cases mk with
    | true => exact LiveB.marks g1.inv hl1 (fun x hx => (hver x hx).mono g1.ext) _
    | false => exact fun r id _ hlook => hl1 r id (by simp) hlook
  obtain ⟨s', hs', hl'⟩ := registerOutputs_ok hc (port := 0) H1 (qs := qs) (bs := outB) hlive back h4 h5
    (node := s1.nodes.length)
    (fun x hx => by
      have := ((hq x hx).argQ H).known
      rw [← g1.keysQ] at this
      exact this)
    (fun x hx => by
      have := ((ho x hx).argB H).known
      rw [← g1.keysB, ← hkB] at this
      exact this)
    (by simp) (fun p _ => g1.inv.none_of_ge (Nat.le_refl _))
  exact ⟨ws, pp, s1, s', hf, hs', hl'⟩

theorem get_ok {h : Half R} {r : R} (hr : (lookupLatest r h.latest).isSome)
    (hreg : ∀ r id, lookupLatest r h.latest = some id → h.regOf id = some r) :
    ∃ x, h.get r = .ok x := by
  unfold Half.get
  cases hl : lookupLatest r h.latest with
  | none => rw [hl] at hr; simp at hr
  | some id =>
    have := hreg r id hl
    unfold Half.regOf at this
    cases he : h.elems[id]? with
    | none => rw [he] at this; simp at this
    | some e => exact ⟨_, by dsimp only; rw [he]⟩

theorem splitArgs_ok {c : Cfg T R} {s : St T R L} {m : Regs R L} (H : Inv c s m) {args : List R}
    (h : ∀ r ∈ args, r ∈ keysQ s ∨ r ∈ keysB s) : ∃ qs bs, splitArgs s args = .ok (qs, bs) := by
  induction args with
  | nil => exact ⟨[], [], rfl⟩
  | cons r rs ih =>
    obtain ⟨qs, bs, hrs⟩ := ih fun r hr => h r (by simp [hr])
    rw [splitArgs]
    by_cases hb : (lookupLatest r s.b.latest).isSome
    · rw [if_pos hb]
      obtain ⟨x, hx⟩ := get_ok hb H.b.reg
      rw [hx, hrs]
      exact ⟨_, _, rfl⟩
    · rw [if_neg hb]
      have hq : (lookupLatest r s.q.latest).isSome := by
        rcases h r (by simp) with h1 | h1
        · exact (lookup_isSome r _).mpr h1
        · exact absurd ((lookup_isSome r _).mpr h1) hb
      obtain ⟨x, hx⟩ := get_ok hq H.q.reg
      rw [hx, hrs]
      exact ⟨_, _, rfl⟩

theorem command_ok {c : Cfg T R} (hc : c.Simple) {s : St T R L} {m : Regs R L} (H : Inv c s m)
    (hlin : Lin c s [] fun _ => False) (hl : LiveB s []) {k : Cmd T R L}
    (hk : k.Ok c (keysQ s) (keysB s)) : ∃ s', command c s k = .ok s' ∧ LiveB s' [] := by
  obtain ⟨qs, bs, hsp⟩ := splitArgs_ok H hk.known
  obtain ⟨h1, h2, h3, h4⟩ := splitArgs_spec H hsp
  have hqs : k.qs (keysB s) = qs.map Arg.reg := h1.symm
  have hbs : k.bs (keysB s) = bs.map Arg.reg := h2.symm
  obtain ⟨_, _, _, ksplit, kback, kty, kiq, kib, kip, koq, kob, kop⟩ := hk
  rw [hqs, hbs] at *
  unfold command
  rw [hsp]
  dsimp only
  have hwire : k.mode ≠ .opaque → ∀ inB outB, (∀ x ∈ inB, x ∈ bs) → (∀ x ∈ outB, x ∈ bs) →
      inB.map Arg.reg = k.mode.readBits (bs.map Arg.reg) →
      outB.map Arg.reg = k.mode.writeBits (bs.map Arg.reg) →
      ∃ s', wireUp c s k.label k.sigIn k.sigOut qs inB outB k.params = .ok s' ∧ LiveB s' [] := by
    intro hne inB outB hi ho hri hwo
    have e1 := kiq hne
    have e2 := kib hne
    have e3 := kip hne
    have e4 := koq hne
    have e5 := kob hne
    have e6 := kop hne
    rw [← hri] at e2
    rw [← hwo] at e5
    rw [List.length_map] at e1 e2 e4 e5
    rw [← hri, ← hwo] at kback
    unfold wireUp
    rw [if_neg (by omega), if_neg (by omega)]
    obtain ⟨ws, pp, s1, s', g1, g2, g3⟩ := cmd_ok hc H hlin hl k.label (sigOut := k.sigOut) (ps := k.params)
      h3 (fun x hx => h4 x (hi x hx)) (fun x hx => h4 x (ho x hx)) (kty hne) e1 e2 e3 e4 e5
      kback true
    rw [g1]
    exact ⟨s', g2, g3⟩
  cases hm : k.mode with
  | split n =>
    have hn := ksplit n hm
    rw [List.length_map] at hn
    dsimp only
    rw [if_neg (by omega)]
    rw [hm] at hwire
    exact hwire (by simp) _ _ (fun x hx => List.mem_of_mem_take hx) (fun x hx => List.mem_of_mem_drop hx)
      (by simp [Mode.readBits, List.map_take]) (by simp [Mode.writeBits, List.map_drop])
  | both =>
    rw [hm] at hwire
    exact hwire (by simp) _ _ (fun _ h => h) (fun _ h => h) rfl rfl
  | «opaque» =>
    dsimp only
    unfold opaqueOp
    have hrot := hc.param _ hc.rot
    have hrq : c.qubits c.rot = 0 := by simp [Cfg.supported] at hrot; omega
    have hrb : c.bits c.rot = 0 := by simp [Cfg.supported] at hrot; omega
    have hpq := param_false hc (sup_qb hc)
    have hpb := param_false hc (sup_bit hc (.inl rfl))
    obtain ⟨ws, pp, s1, s', g1, g2, g3⟩ := cmd_ok hc H hlin hl k.label
      (sigIn := c.opaqueIn qs.length bs.length k.params.length)
      (sigOut := c.opaqueOut qs.length bs.length) (ps := k.params)
      h3 h4 h4
      (by
        intro t ht
        simp only [Cfg.opaqueIn, List.append_assoc, List.mem_append, List.mem_replicate] at ht
        rcases ht with ⟨_, rfl⟩ | ⟨_, rfl⟩ | ⟨_, rfl⟩
        · exact .inl rfl
        · exact .inr (.inl (.inl rfl))
        · exact .inr (.inr hc.rot))
      (by simp [Cfg.countQ, Cfg.opaqueIn, hc.qb_q, hc.bool_q, hrq])
      (by simp [Cfg.countB, Cfg.opaqueIn, hc.qb_b, hc.bool_b, hrb])
      (by simp [Cfg.countP, Cfg.opaqueIn, List.countP_append, List.countP_replicate, hpq, hpb, hc.rot])
      (by simp [Cfg.countQ, Cfg.opaqueOut, hc.qb_q, hc.bool_q])
      (by simp [Cfg.countB, Cfg.opaqueOut, hc.qb_b, hc.bool_b])
      (fun _ h => h) false
    rw [g1]
    unfold addNode
    dsimp only
    rw [trackEach_eq hc]
    exact ⟨s', g2, g3⟩

theorem commands_ok {c : Cfg T R} (hc : c.Simple) {ks : List (Cmd T R L)} {s : St T R L}
    {m : Regs R L} (H : Inv c s m) (hlin : Lin c s [] fun _ => False) (hl : LiveB s [])
    (hk : ∀ k ∈ ks, k.Ok c (keysQ s) (keysB s)) :
    ∃ s', commands c s ks = .ok s' ∧ LiveB s' [] := by
  induction ks generalizing s m with
  | nil => exact ⟨s, rfl, hl⟩
  | cons k ks ih =>
    have hk0 := hk k (by simp)
    obtain ⟨s1, h1, hl1⟩ := command_ok hc H hlin hl hk0
    obtain ⟨⟨g1, g2, g3, g4⟩, g5⟩ := command_spec hc H hk0.last h1
    obtain ⟨s', h2, hl2⟩ := ih g1 (command_lin hc H hlin hk0.nodup h1) hl1
      (fun k hk' => by rw [g3, g4]; exact hk k (by simp [hk']))
    rw [commands, h1]
    exact ⟨s', h2, hl2⟩

theorem initInputs_ok {c : Cfg T R} (hc : c.Simple) {ts : List T} {port : Nat} {s : St T R L}
    {m : Regs R L} (H : Inv c s m) {qs bs : List R} (hlt : 0 < s.nodes.length)
    (hn : ∀ p, port ≤ p → s.wires ⟨0, p⟩ = none) (hl : LiveB s [])
    (hsq : ∀ r ∈ qs, c.single r = true) (hsb : ∀ r ∈ bs, c.single r = true)
    (hcq : c.countQ ts ≤ qs.length) :
    ∃ qs' bs' s', initInputs c s port ts qs bs = .ok (qs', bs', s') ∧ LiveB s' [] ∧
      (∀ r ∈ qs', r ∈ qs) ∧ ∀ r ∈ bs', r ∈ bs := by
  induction ts generalizing s m port qs bs with
  | nil => exact ⟨qs, bs, s, rfl, hl, fun _ h => h, fun _ h => h⟩
  | cons t ts ih =>
    rw [initInputs]
    simp only [Cfg.countQ, List.map_cons, List.sum_cons] at hcq
    have hn0 := hn port (Nat.le_refl _)
    have hstep : ∀ p, port + 1 ≤ p → (⟨0, p⟩ : Wire) ≠ ⟨0, port⟩ := by
      intro p hp he
      injection he with _ he
      omega
    by_cases ht : t = c.qb
    · subst ht
      rw [hc.qb_q] at hcq
      rw [if_neg (by simp [sup_qb hc]), hc.qb_q, hc.qb_b]
      cases qs with
      | nil => simp at hcq
      | cons x xs =>
        rw [if_neg (by simp)]
        simp only [List.take_succ_cons, List.take_zero, List.drop_succ_cons, List.drop_zero]
        rw [trackWire_q _ _ _ _ _ (hsq x (by simp))]
        dsimp only
        rw [if_neg (by simp [param_false hc (sup_qb hc)])]
        obtain ⟨qs', bs', s', e1, e2, e3, e4⟩ := ih (port := port + 1) (H.newQ hn0 hlt x (hsq x (by simp))) hlt
          (fun p hp => by simp [newQ, hstep p hp, hn p (by omega)])
          (fun r id hr hlook => hl r id hr hlook) (qs := xs) (bs := bs)
          (fun r hr => hsq r (by simp [hr])) hsb
          (by unfold Cfg.countQ; simp only [List.length_cons] at hcq; omega)
        exact ⟨qs', bs', s', e1, e2, fun r hr => List.mem_cons_of_mem _ (e3 r hr), e4⟩
    · by_cases hbt : t = c.bool ∨ t = c.tbool
      · rw [bit_q hc hbt] at hcq
        rw [if_neg (by simp [sup_bit hc hbt]), bit_q hc hbt, bit_b hc hbt, if_neg (by omega)]
        cases bs with
        | nil =>
          simp only [List.take_zero, List.drop_zero, List.take_nil, List.drop_nil]
          rw [trackWire_n]
          dsimp only
          rw [if_neg (by simp [param_false hc (sup_bit hc hbt)])]
          exact ih (port := port + 1) (H.newW hn0 hlt t) hlt
            (fun p hp => by simp [newW, hstep p hp, hn p (by omega)])
            (fun r id hr hlook => hl r id hr hlook) hsq hsb (by unfold Cfg.countQ; omega)
        | cons x xs =>
          simp only [List.take_succ_cons, List.take_zero, List.drop_succ_cons, List.drop_zero]
          rw [trackWire_b _ _ _ _ _ (hsb x (by simp))]
          dsimp only
          rw [if_neg (by simp [param_false hc (sup_bit hc hbt)])]
          obtain ⟨qs', bs', s', e1, e2, e3, e4⟩ := ih (port := port + 1) (H.newB hn0 hlt x (hsb x (by simp)) hbt) hlt
            (fun p hp => by simp [newB, hstep p hp, hn p (by omega)])
            (LiveB.newB H hl _ _ _ (by simp)) (qs := qs) (bs := xs) hsq
            (fun r hr => hsb r (by simp [hr])) (by unfold Cfg.countQ; omega)
          exact ⟨qs', bs', s', e1, e2, e3, fun r hr => List.mem_cons_of_mem _ (e4 r hr)⟩
      · obtain ⟨c1, c2⟩ := counts_other hc ht hbt
        rw [c1] at hcq
        have hs : c.supported t = false := by simp [Cfg.supported, c1, c2]
        split
        · exact ih (port := port + 1) H hlt (fun p hp => hn p (Nat.le_trans (Nat.le_succ port) hp)) hl hsq hsb (by unfold Cfg.countQ; omega)
        · rw [c1, c2, if_neg (by omega)]
          simp only [List.take_zero, List.drop_zero]
          rw [trackWire_n]
          dsimp only
          rw [if_neg (by simp [hs])]
          exact ih (port := port + 1) (H.newW hn0 hlt t) hlt
            (fun p hp => by simp [newW, hstep p hp, hn p (by omega)])
            (fun r id hr hlook => hl r id hr hlook) hsq hsb (by unfold Cfg.countQ; omega)

omit [DecidableEq T] in
theorem declare_ok {single : R → Bool} {rs : List R} (hs : ∀ r ∈ rs, single r = true) (h : Half R) :
    ∃ h', h.declare single rs = .ok h' := by
  induction rs generalizing h with
  | nil => exact ⟨h, rfl⟩
  | cons r rs ih =>
    rw [Half.declare, track_eq _ _ _ (hs r (by simp))]
    exact ih (fun r hr => hs r (by simp [hr])) _

theorem declare_live {c : Cfg T R} {s : St T R L} {m : Regs R L} (H : Inv c s m) {rs : List R}
    {b : Half R} (hl : LiveB s []) (hm : ∀ r ∈ rs, m.b r = .ff)
    (hd : s.b.declare c.single rs = .ok b) : LiveB { s with b := b } [] := by
  induction rs generalizing s with
  | nil =>
    simp only [Half.declare, Except.ok.injEq] at hd
    subst hd
    exact hl
  | cons r rs ih =>
    rw [Half.declare] at hd
    by_cases hs : c.single r = true
    · rw [track_eq _ _ _ hs] at hd
      dsimp only at hd
      have H1 : Inv c { s with b := s.b.next r [] } m := ⟨H.q, H.b.declare r hs (hm r (by simp)), H.fresh⟩
      refine ih (s := { s with b := s.b.next r [] }) H1 ?_ (fun r hr => hm r (by simp [hr])) hd
      exact fun r' id hr' hlook => next_live' hl H.b.reg (fun r id hl => (H.b.holds r id hl).1)
        (P' := []) (by simp) r' id hr' hlook
    · simp [Half.track, hs] at hd

theorem init_ok {c : Cfg T R} (hc : c.Simple) {k : Circ T R L} (hk : k.Ok c) :
    ∃ s : St T R L, init c k.sigIn k.qubits k.bits = .ok s ∧ LiveB s [] := by
  have H0 : Inv c (⟨[⟨.input, [], [], k.sigIn⟩], Half.empty, Half.empty, fun _ => none⟩ : St T R L)
      ⟨fun _ => .zero, fun _ => .ff⟩ := by
    refine ⟨⟨?_, ?_, ?_⟩, ⟨?_, ?_, ?_⟩, ?_⟩ <;> simp [Half.empty, lookupLatest]
  obtain ⟨qs', bs', s1, e1, e2, e3, e4⟩ := initInputs_ok hc (port := 0) H0 (by simp) (fun _ _ => rfl)
    (by intro r id _ h; simp [Half.empty, lookupLatest] at h)
    (fun r hr => hk.single r (.inl hr)) (fun r hr => hk.single r (.inr hr)) hk.inQ
  obtain ⟨h1, h2, h3, h4, h5, h6, h7, h8⟩ := initInputs_spec hc H0 (by simp)
    (fun p => eval_head _ [] p) (fun _ _ => rfl) hk.qubits hk.bits e1
  obtain ⟨q, hq⟩ := declare_ok (fun r hr => hk.single r (.inl (e3 r hr))) s1.q
  obtain ⟨b, hb⟩ := declare_ok (fun r hr => hk.single r (.inr (e4 r hr))) s1.b
  unfold init
  rw [e1]
  dsimp only
  rw [hq]
  dsimp only
  rw [hb]
  exact ⟨_, rfl, declare_live h1 e2 (fun r hr => h6 r hr) hb⟩

omit [DecidableEq T] [DecidableEq R] in
theorem mapM_some {α β : Type} {f : α → Option β} {l : List α} (h : ∀ a ∈ l, (f a).isSome) :
    ∃ bs, l.mapM f = some bs := by
  induction l with
  | nil => exact ⟨[], rfl⟩
  | cons a l ih =>
    obtain ⟨b, hb⟩ := Option.isSome_iff_exists.mp (h a (by simp))
    obtain ⟨bs, hbs⟩ := ih fun a ha => h a (by simp [ha])
    exact ⟨b :: bs, by simp [List.mapM_cons, hb, hbs]⟩

omit [DecidableEq T] in
theorem args_ok {h : Half R} {ids : List Nat} (hi : ∀ i ∈ ids, i < h.elems.length) :
    ∃ as, h.args ids = .ok as := by
  induction ids with
  | nil => exact ⟨[], rfl⟩
  | cons i ids ih =>
    obtain ⟨as, ha⟩ := ih fun i hi' => hi i (by simp [hi'])
    rw [Half.args, List.getElem?_eq_getElem (hi i (by simp)), ha]
    exact ⟨_, rfl⟩

theorem finish_ok {c : Cfg T R} (hc : c.Simple) {s : St T R L} {m : Regs R L} (H : Inv c s m)
    (hlin : Lin c s [] fun _ => False) (hl : LiveB s [])
    (hkq : (keysQ s).Nodup) (hkb : (keysB s).Nodup) {sig : List T} {perm ps : List Nat}
    (hr : ∀ p ∈ perm, p < (keysQ s).length)
    (hperm : ((List.range (keysQ s).length).filterMap fun i => (keysQ s)[(perm[i]?).getD i]?).Perm
      (keysQ s))
    (h1 : c.countQ sig ≤ (keysQ s).length) (h2 : c.countB sig ≤ (keysB s).length)
    (h3 : c.countP sig ≤ ps.length) : ∃ s', finish c s sig perm ps = .ok s' := by
  have hlen : (keysQ s).length = s.q.latest.length := by unfold keysQ; simp
  have hlenB : (keysB s).length = s.b.latest.length := by unfold keysB; simp
  obtain ⟨ids, hk⟩ : ∃ ids, knownIds s.q.latest perm = some ids := by
    refine mapM_some ?_
    intro i hi
    rw [List.mem_range] at hi
    rw [Option.isSome_map]
    have : (perm[i]?).getD i < s.q.latest.length := by
      cases hp : perm[i]? with
      | none => exact hi
      | some p =>
        rw [← hlen]
        exact hr p (List.mem_of_getElem? hp)
    rw [List.getElem?_eq_getElem this]
    rfl
  obtain ⟨l, hl1, hl2, hl3⟩ := known_spec hk
  subst hl2
  have hin : ∀ {h : Half R}, (h.latest.map Prod.fst).Nodup →
      (∀ r id, lookupLatest r h.latest = some id → id < h.elems.length) → ∀ {l : List (R × Nat)},
      (∀ e ∈ l, e ∈ h.latest) → ∀ i ∈ l.map Prod.snd, i < h.elems.length := by
    intro h hn hlt l hl i hi
    obtain ⟨⟨r, id⟩, he, rfl⟩ := List.mem_map.mp hi
    exact hlt r id (lookup_of_mem hn (hl _ he))
  obtain ⟨qs, hqs⟩ := args_ok (hin hkq (fun r id h => (H.q.holds r id h).1) hl1)
  obtain ⟨bs, hbs⟩ := args_ok (hin hkb (fun r id h => (H.b.holds r id h).1) (l := s.b.latest) (fun e he => he))
  obtain ⟨q1, q2⟩ := args_latest hkq H.q.reg hl1 hqs
  obtain ⟨b1, b2⟩ := args_latest hkb H.b.reg (fun e he => he) hbs
  have hargs : Args c s m ⟨qs, bs, ps⟩ :=
    ⟨fun x hx => (q2 x hx).argQ H, fun x hx => (b2 x hx).argB H⟩
  have hqlen : qs.length = (keysQ s).length := by
    have := congrArg List.length q1
    rw [List.length_map, hl3, ← hlen] at this
    rw [this]
    exact hperm.length_eq
  have hblen : bs.length = (keysB s).length := by
    have := congrArg List.length b1
    rw [List.length_map] at this
    exact this
  obtain ⟨⟨ss, a, s1⟩, hf⟩ := finishOutputs_ok hc H hargs (ts := sig)
    ⟨by rw [hqlen]; exact h1, by rw [hblen]; exact h2, h3,
      fun x hx => Latest.fresh hlin (q2 x hx), fun x hx => by
        have := hl x.reg x.id (by simp) (b2 x hx).look
        rw [(b2 x hx).elem] at this
        simpa using this⟩
  unfold finish
  rw [hk]
  dsimp only
  rw [hqs]
  dsimp only
  rw [hbs]
  dsimp only
  rw [hf]
  exact ⟨_, rfl⟩

/-- Circuits that fit can be decoded. -/
theorem decode_ok {c : Cfg T R} (hc : c.Simple) {k : Circ T R L} (hk : k.Ok c) :
    ∃ ns, decode c k = .ok ns := by
  obtain ⟨s, hi, hl⟩ := init_ok hc hk
  obtain ⟨H, k1, k2, o⟩ := init_spec hc hk.qubits hk.bits hi
  have L0 := init_lin hc hk.qubits hk.bits hi
  obtain ⟨s1, hcm, hl1⟩ := commands_ok hc H L0 hl (ks := k.cmds)
    (fun x hx => by rw [k1, k2]; exact hk.cmds x hx)
  obtain ⟨⟨g1, g2, g3, g4⟩, g5⟩ := commands_spec hc H (fun x hx => (hk.cmds x hx).last) hcm
  have L1 := commands_lin hc H L0 (fun x hx => (hk.cmds x hx).last)
    (fun x hx => by rw [k2]; exact (hk.cmds x hx).nodup) hcm
  have e3 : keysQ s1 = k.qubits := g3.trans k1
  have e4 : keysB s1 = k.bits := g4.trans k2
  obtain ⟨s2, hf⟩ := finish_ok hc g1 L1 hl1 (by rw [e3]; exact hk.qubits) (by rw [e4]; exact hk.bits)
    (sig := k.sigOut) (perm := k.perm) (ps := k.outParams)
    (by rw [e3]; exact hk.range) (by rw [e3]; exact hk.perm) (by rw [e3]; exact hk.outQ)
    (by rw [e4]; exact hk.outB) hk.outP
  unfold decode
  rw [hi]
  dsimp only
  rw [hcm]
  dsimp only
  rw [hf]
  exact ⟨_, rfl⟩

end Verif.Decoder
