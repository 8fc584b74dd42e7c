import Verif.Model.PyBuildSpec
import Mathlib.Tactic.SplitIfs
import Mathlib.Tactic.Tauto

namespace Verif.PyBuild

variable {L : Type}

/-- Argument `a` stands for register `r`. -/
def Is (n : Nat) (a : Arg) (r : Nat) : Prop := r < n ∧ (a = .idx (r : Int) ∨ a = .idx ((r : Int) - n))

theorem place_iff {n : Nat} {i : Int} {r : Nat} :
    place n i = some r ↔ r < n ∧ (i = (r : Int) ∨ i = (r : Int) - n) := by
  unfold place
  split_ifs <;> simp <;> omega

theorem place_none {n : Nat} {i : Int} : place n i = none ↔ ¬ (-(n : Int) ≤ i ∧ i < n) := by
  unfold place
  split_ifs <;> simp <;> omega

theorem is_idx {n : Nat} {i : Int} {r : Nat} : Is n (.idx i) r ↔ place n i = some r := by
  rw [place_iff]; simp [Is]

theorem resolve_is {t : List Wire} {a : Arg} {r : Nat} (h : Is t.length a r) :
    resolve t a = .ok (t[r]?.getD ⟨0, 0⟩) := by
  cases a with
  | wire w => simp [Is] at h
  | idx i =>
    have hr := h.1
    rw [is_idx] at h
    simp [resolve, h, hr]

theorem resolve_ok {t : List Wire} {i : Int} {w : Wire} (h : resolve t (.idx i) = .ok w) :
    ∃ r, Is t.length (.idx i) r := by
  unfold resolve at h
  dsimp only at h
  cases hp : place t.length i with
  | none => rw [hp] at h; simp at h
  | some k => exact ⟨k, is_idx.2 hp⟩

theorem mapM_is {t : List Wire} {as : List Arg} {rs : List Nat} (h : List.Forall₂ (Is t.length) as rs) :
    as.mapM (resolve t) = .ok (rs.map fun r => t[r]?.getD ⟨0, 0⟩) := by
  induction h with
  | nil => rfl
  | cons h1 _ ih => rw [List.mapM_cons, resolve_is h1, ih]; rfl

theorem mapM_ok {t : List Wire} {as : List Arg} {ws : List Wire} (hi : ∀ a ∈ as, ∃ i, a = .idx i)
    (h : as.mapM (resolve t) = .ok ws) : ∃ rs, List.Forall₂ (Is t.length) as rs := by
  induction as generalizing ws with
  | nil => exact ⟨[], .nil⟩
  | cons a as ih =>
    obtain ⟨i, rfl⟩ := hi a (by simp)
    rw [List.mapM_cons] at h
    cases h1 : resolve t (.idx i) with
    | error e => rw [h1] at h; cases h
    | ok w =>
      cases h2 : as.mapM (resolve t) with
      | error e => rw [h1, h2] at h; cases h
      | ok ws' =>
        obtain ⟨r, hr⟩ := resolve_ok h1
        obtain ⟨rs, hrs⟩ := ih (fun a ha => hi a (by simp [ha])) h2
        exact ⟨r :: rs, .cons hr hrs⟩

/-- `track` on registers. -/
def sets (node : Nat) : Nat → List Nat → List Wire → List Wire
  | _, [], t => t
  | k, r :: rs, t => sets node (k + 1) rs (t.set r ⟨node, k⟩)

theorem sets_length {node k : Nat} {rs : List Nat} {t : List Wire} :
    (sets node k rs t).length = t.length := by
  induction rs generalizing k t with
  | nil => rfl
  | cons r rs ih => simp [sets, ih]

theorem track_eq {node k : Nat} {t : List Wire} {as : List Arg} {rs : List Nat}
    (h : List.Forall₂ (Is t.length) as rs) : track node k as t = sets node k rs t := by
  generalize hn : t.length = n at h
  induction h generalizing k t with
  | nil => rfl
  | @cons a r as rs h1 _ ih =>
    cases a with
    | wire w => simp [Is] at h1
    | idx i =>
      rw [is_idx] at h1
      simp only [track, sets, hn, h1]
      exact ih (by simp [hn])

theorem sets_mem {node k : Nat} {rs : List Nat} {t : List Wire} {w : Wire}
    (h : w ∈ sets node k rs t) :
    w ∈ t ∨ (w.node = node ∧ k ≤ w.port ∧ w.port < k + rs.length) := by
  induction rs generalizing k t with
  | nil => exact .inl h
  | cons r rs ih =>
    rcases ih h with h1 | ⟨h1, h2, h3⟩
    · rcases List.mem_or_eq_of_mem_set h1 with h4 | rfl
      · exact .inl h4
      · exact .inr ⟨rfl, by simp, by simp⟩
    · exact .inr ⟨h1, by omega, by simp only [List.length_cons]; omega⟩

theorem sets_last {node k : Nat} {rs : List Nat} {t : List Wire} (hr : ∀ r ∈ rs, r < t.length)
    (h : rs ≠ []) : (⟨node, k + rs.length - 1⟩ : Wire) ∈ sets node k rs t := by
  induction rs generalizing k t with
  | nil => exact absurd rfl h
  | cons r rs ih =>
    by_cases h1 : rs = []
    · subst h1
      simp only [sets]
      exact List.mem_set (hr r (by simp)) _
    · have h2 := ih (k := k + 1) (t := t.set r ⟨node, k⟩) (fun r' h' => by simpa using hr r' (by simp [h'])) h1
      simp only [sets]
      have h3 : k + (r :: rs).length - 1 = k + 1 + rs.length - 1 := by simp only [List.length_cons]; omega
      rw [h3]; exact h2

theorem sets_get {node k : Nat} {rs : List Nat} {t : List Wire} {p : Nat} (h : p ∉ rs) :
    (sets node k rs t)[p]? = t[p]? := by
  induction rs generalizing k t with
  | nil => rfl
  | cons r rs ih =>
    simp only [List.mem_cons, not_or] at h
    rw [sets, ih h.2, List.getElem?_set_ne (Ne.symm h.1)]

theorem eval_old {n : Nat} {x : Node L} {ns : List (Node L)} {w : Wire} (h : w.node ≤ ns.length) :
    eval n (x :: ns) w = eval n ns w := by
  rw [eval, if_neg (by omega)]

theorem wireTy_old {n : Nat} {x : Node L} {ns : List (Node L)} {w : Wire} (h : w.node ≤ ns.length) :
    wireTy n (x :: ns) w = wireTy n ns w := by
  rw [wireTy, if_neg (by omega)]

theorem wireTy_node {n : Nat} {ns : List (Node L)} {w : Wire} {t : Ty} (h : wireTy n ns w = some t) :
    w.node ≤ ns.length := by
  induction ns with
  | nil => simp only [wireTy] at h; split_ifs at h with h1; omega
  | cons x ns ih =>
    rw [wireTy] at h
    split_ifs at h with h1
    · simp; omega
    · have := ih h; simp; omega

/-! ### States -/

/-- No wire comes from a node that does not exist. -/
def Wf (st : St L) : Prop :=
  st.tracked.length = st.qubits ∧ ∀ w ∈ st.tracked, w.node ≤ st.nodes.length

/-- All tracked wires exist. -/
def Live (st : St L) : Prop := ∀ w ∈ st.tracked, (wireTy st.qubits st.nodes w).isSome

def Indexed (c : Com L) : Prop := ∀ a ∈ c.args, ∃ i, a = .idx i

/-- The state after a command. -/
def after (st : St L) (c : Com L) (rs : List Nat) : St L :=
  { st with
    nodes := ⟨c.op, c.outs, rs.map fun r => st.tracked[r]?.getD ⟨0, 0⟩⟩ :: st.nodes
    tracked := sets (st.nodes.length + 1) 0 rs st.tracked }

theorem get_mem {t : List Wire} {r : Nat} (h : r < t.length) : t[r]?.getD ⟨0, 0⟩ ∈ t := by
  simp [h]

theorem forall2_lt {n : Nat} {as : List Arg} {rs : List Nat} (h : List.Forall₂ (Is n) as rs) :
    ∀ r ∈ rs, r < n := by
  induction h with
  | nil => simp
  | cons h1 _ ih => simpa using ⟨h1.1, ih⟩

theorem add_eq {st : St L} {c : Com L} {rs : List Nat} (hw : Wf st)
    (h : List.Forall₂ (Is st.qubits) c.args rs) :
    add st c = if (rs.all fun r => (wireTy st.qubits st.nodes (st.tracked[r]?.getD ⟨0, 0⟩)).isSome) then
      .ok (after st c rs) else .error .noPort := by
  have h' := h
  rw [← hw.1] at h'
  unfold add
  rw [mapM_is h', track_eq h']
  have : ((rs.map fun r => st.tracked[r]?.getD ⟨0, 0⟩).all
      fun w => (wireTy st.qubits st.nodes w).isSome) =
      rs.all fun r => (wireTy st.qubits st.nodes (st.tracked[r]?.getD ⟨0, 0⟩)).isSome := by
    rw [List.all_map]; rfl
  simp only [connect, bind, Except.bind, this]
  split_ifs <;> rfl

theorem add_live {st : St L} {c : Com L} {rs : List Nat} (hw : Wf st) (hl : Live st)
    (h : List.Forall₂ (Is st.qubits) c.args rs) : add st c = .ok (after st c rs) := by
  rw [add_eq hw h, if_pos]
  rw [List.all_eq_true]
  intro r hr
  exact hl _ (get_mem (hw.1 ▸ forall2_lt h r hr))

theorem add_regs {st st' : St L} {c : Com L} (hw : Wf st) (hi : Indexed c) (h : add st c = .ok st') :
    ∃ rs, List.Forall₂ (Is st.qubits) c.args rs ∧ st' = after st c rs ∧
      ∀ r ∈ rs, (wireTy st.qubits st.nodes (st.tracked[r]?.getD ⟨0, 0⟩)).isSome := by
  have hm : ∃ ws, c.args.mapM (resolve st.tracked) = .ok ws := by
    unfold add at h
    cases h1 : c.args.mapM (resolve st.tracked) with
    | error e => rw [h1] at h; cases h
    | ok ws => exact ⟨ws, rfl⟩
  obtain ⟨ws, hm⟩ := hm
  obtain ⟨rs, hrs⟩ := mapM_ok hi hm
  rw [hw.1] at hrs
  rw [add_eq hw hrs] at h
  split_ifs at h with h2
  rw [List.all_eq_true] at h2
  exact ⟨rs, hrs, (Except.ok.inj h).symm, h2⟩

theorem wf_after {st : St L} {c : Com L} {rs : List Nat} (hw : Wf st) : Wf (after st c rs) := by
  refine ⟨by simp only [after, sets_length]; exact hw.1, ?_⟩
  intro w h
  rcases sets_mem h with h1 | h1
  · have := hw.2 w h1; simp only [after, List.length_cons]; omega
  · simp only [after, List.length_cons]; omega

theorem live_after {st : St L} {c : Com L} {rs : List Nat} (hw : Wf st) (hl : Live st)
    (hn : rs.length ≤ c.outs.length) : Live (after st c rs) := by
  intro w h
  rcases sets_mem h with h1 | ⟨h1, _, h3⟩
  · simp only [after]; rw [wireTy_old (hw.2 w h1)]; exact hl w h1
  · simp only [after, wireTy, if_pos h1]
    rw [List.getElem?_eq_getElem (by omega)]; rfl

theorem dead_after {st : St L} {c : Com L} {rs : List Nat} (hr : ∀ r ∈ rs, r < st.tracked.length)
    (hne : rs ≠ []) (hn : c.outs.length < rs.length) : ¬ Live (after st c rs) := by
  intro hl
  have h1 := hl _ (sets_last (k := 0) hr hne)
  simp only [after, wireTy, if_pos] at h1
  rw [List.getElem?_eq_none (by omega)] at h1
  simp at h1

theorem dead_stays {st : St L} {c : Com L} {rs : List Nat} (hw : Wf st) (hd : ¬ Live st)
    (ht : ∀ r ∈ rs, (wireTy st.qubits st.nodes (st.tracked[r]?.getD ⟨0, 0⟩)).isSome) :
    ¬ Live (after st c rs) := by
  intro hl
  apply hd
  intro w hmem
  obtain ⟨p, hp, rfl⟩ := List.getElem_of_mem hmem
  by_cases hpr : p ∈ rs
  · have := ht p hpr
    simpa [hp] using this
  · have h1 : (sets (st.nodes.length + 1) 0 rs st.tracked)[p]? = some st.tracked[p] := by
      rw [sets_get hpr]; simp [hp]
    have h2 := hl _ (List.mem_of_getElem? h1)
    simp only [after] at h2
    rwa [wireTy_old (hw.2 _ hmem)] at h2

theorem dead_fails {st st' : St L} {cs : List (Com L)} (hw : Wf st) (hd : ¬ Live st)
    (hi : ∀ c ∈ cs, Indexed c) (h : extend st cs = .ok st') : ¬ Live st' := by
  induction cs generalizing st with
  | nil => cases h; exact hd
  | cons c cs ih =>
    rw [extend] at h
    cases h1 : add st c with
    | error e => rw [h1] at h; cases h
    | ok s1 =>
      rw [h1] at h
      obtain ⟨rs, _, rfl, h3⟩ := add_regs hw (hi c (by simp)) h1
      exact ih (wf_after hw) (dead_stays hw hd h3) (fun c hc => hi c (by simp [hc])) h

theorem setOutputs_iff {st : St L} {r : Circ L} :
    setOutputs st = .ok r ↔ Live st ∧ r = ⟨st.qubits, st.nodes, st.tracked⟩ := by
  unfold setOutputs connect Live
  have : (st.tracked.all fun w => (wireTy st.qubits st.nodes w).isSome) = true ↔
      ∀ w ∈ st.tracked, (wireTy st.qubits st.nodes w).isSome := by
    rw [List.all_eq_true]
  split_ifs with h1
  · constructor
    · intro h; exact ⟨this.1 h1, (Except.ok.inj h).symm⟩
    · rintro ⟨_, rfl⟩; rfl
  · constructor
    · intro h; cases h
    · rintro ⟨h, _⟩; exact absurd (this.2 h) h1

/-! ### Running -/

/-- The registers hold the values of the tracked wires. -/
def Holds (st : St L) (regs : List (V L)) : Prop :=
  st.tracked.map (eval st.qubits st.nodes) = regs

theorem sets_map {node k : Nat} {rs : List Nat} {t : List Wire} {f : Wire → V L} {com : Nat} {op : L}
    {args : List (V L)} (h : ∀ j, k ≤ j → j < k + rs.length → f ⟨node, j⟩ = .out com op j args) :
    (sets node k rs t).map f = store com op args k rs (t.map f) := by
  induction rs generalizing k t with
  | nil => rfl
  | cons r rs ih =>
    rw [sets, store, ih (fun j h1 h2 => h j (by omega) (by simp; omega)), List.map_set,
      h k (by omega) (by simp)]

theorem holds_after {st : St L} {c : Com L} {rs : List Nat} {regs : List (V L)} (hw : Wf st)
    (hh : Holds st regs) (hr : ∀ r ∈ rs, r < st.tracked.length) (hn : rs.length ≤ c.outs.length) :
    (rs.map fun r => st.tracked[r]?.getD ⟨0, 0⟩).map (eval st.qubits st.nodes) =
        (rs.map fun r => regs[r]?.getD .undefined) ∧
      Holds (after st c rs)
        (store st.nodes.length c.op (rs.map fun r => regs[r]?.getD .undefined) 0 rs regs) := by
  have h1 : (rs.map fun r => st.tracked[r]?.getD ⟨0, 0⟩).map (eval st.qubits st.nodes) =
        (rs.map fun r => regs[r]?.getD .undefined) := by
    rw [List.map_map]
    apply List.map_congr_left
    intro r h
    rw [← hh]
    simp [hr r h]
  refine ⟨h1, ?_⟩
  unfold Holds
  simp only [after]
  rw [sets_map (com := st.nodes.length) (op := c.op)
    (args := rs.map fun r => regs[r]?.getD .undefined)]
  · congr 1
    rw [← hh]
    apply List.map_congr_left
    intro w h
    exact eval_old (hw.2 w h)
  · intro j _ hj
    rw [eval, if_pos rfl, if_pos (by simp; omega), h1]

theorem extend_run {st st' : St L} {cs : List (Com L)} {regs : List (V L)} (hw : Wf st) (hl : Live st)
    (hh : Holds st regs) (hi : ∀ c ∈ cs, Indexed c) (h : extend st cs = .ok st') (hl' : Live st')
    (hne : ∀ c ∈ cs, c.args ≠ []) :
    st'.qubits = st.qubits ∧ (∀ c ∈ cs, c.args.length ≤ c.outs.length) ∧
      ∃ gs, List.Forall₂ (Denotes st.qubits) cs gs ∧
      received st.qubits st'.nodes = received st.qubits st.nodes ++ (run st.nodes.length gs regs).1 ∧
      Holds st' (run st.nodes.length gs regs).2 := by
  induction cs generalizing st regs with
  | nil =>
    cases h
    exact ⟨rfl, by simp, [], .nil, by simp [run], hh⟩
  | cons c cs ih =>
    rw [extend] at h
    cases h1 : add st c with
    | error e => rw [h1] at h; cases h
    | ok s1 =>
      rw [h1] at h
      obtain ⟨rs, h2, rfl, h3⟩ := add_regs hw (hi c (by simp)) h1
      have hlen := h2.length_eq
      have hr : ∀ r ∈ rs, r < st.tracked.length := hw.1 ▸ forall2_lt h2
      have hn : rs.length ≤ c.outs.length := by
        by_contra hc
        have hrs : rs ≠ [] := by
          intro h0; subst h0; simp at hc
        exact dead_fails (wf_after hw) (dead_after hr hrs (by omega))
          (fun c hc => hi c (by simp [hc])) h hl'
      obtain ⟨h4, h5⟩ := holds_after (c := c) hw hh hr hn
      obtain ⟨e1, e2, gs, e3, e4, e5⟩ := ih (wf_after hw) (live_after hw hl hn) h5
        (fun c hc => hi c (by simp [hc])) h (fun c hc => hne c (by simp [hc]))
      refine ⟨e1, ?_, ⟨c.op, rs⟩ :: gs, .cons ⟨rfl, h2⟩ e3, ?_, ?_⟩
      · intro c' hc'
        rcases List.mem_cons.1 hc' with rfl | hc'
        · omega
        · exact e2 c' hc'
      · simp only [after] at e4
        rw [e4, received, h4]
        simp [run]
      · simpa [run, after] using e5

theorem extend_ok {st : St L} {cs : List (Com L)} (hw : Wf st) (hl : Live st)
    (h : ∀ c ∈ cs, c.args.length ≤ c.outs.length ∧
      ∀ a ∈ c.args, ∃ i, a = .idx i ∧ -(st.qubits : Int) ≤ i ∧ i < st.qubits) :
    ∃ st', extend st cs = .ok st' ∧ Live st' := by
  induction cs generalizing st with
  | nil => exact ⟨st, rfl, hl⟩
  | cons c cs ih =>
    obtain ⟨h1, h2⟩ := h c (by simp)
    have h3 : ∀ as : List Arg, (∀ a ∈ as, ∃ i, a = .idx i ∧ -(st.qubits : Int) ≤ i ∧ i < st.qubits) →
        ∃ rs, List.Forall₂ (Is st.qubits) as rs := by
      intro as
      induction as with
      | nil => exact fun _ => ⟨[], .nil⟩
      | cons a as iha =>
        intro ha
        obtain ⟨rs, hrs⟩ := iha fun a h => ha a (by simp [h])
        obtain ⟨i, rfl, h4, h5⟩ := ha a (by simp)
        cases hp : place st.qubits i with
        | none => exact absurd ⟨h4, h5⟩ (place_none.1 hp)
        | some r => exact ⟨r :: rs, .cons (is_idx.2 hp) hrs⟩
    obtain ⟨rs, hrs⟩ := h3 c.args h2
    have hlen := hrs.length_eq
    obtain ⟨st', e1, e2⟩ := ih (st := after st c rs) (wf_after hw) (live_after hw hl (by omega))
      (fun c hc => h c (by simp [hc]))
    refine ⟨st', ?_, e2⟩
    rw [extend, add_live hw hl hrs]
    exact e1

theorem extend_regs {st st' : St L} {cs : List (Com L)} (hw : Wf st) (hi : ∀ c ∈ cs, Indexed c)
    (h : extend st cs = .ok st') :
    ∀ c ∈ cs, ∃ rs, List.Forall₂ (Is st.qubits) c.args rs := by
  induction cs generalizing st with
  | nil => simp
  | cons c cs ih =>
    rw [extend] at h
    cases h1 : add st c with
    | error e => rw [h1] at h; cases h
    | ok s1 =>
      rw [h1] at h
      obtain ⟨rs, h2, rfl, h3⟩ := add_regs hw (hi c (by simp)) h1
      have := ih (wf_after hw) (fun c hc => hi c (by simp [hc])) h
      intro c' hc'
      rcases List.mem_cons.1 hc' with rfl | hc'
      · exact ⟨rs, h2⟩
      · exact this c' hc'

theorem wf_init (n : Nat) : Wf (withNqb n : St L) := by
  refine ⟨by simp [withNqb], ?_⟩
  intro w h
  simp only [withNqb, List.mem_map] at h
  obtain ⟨i, _, rfl⟩ := h
  simp

theorem live_init (n : Nat) : Live (withNqb n : St L) := by
  intro w h
  simp only [withNqb, List.mem_map, List.mem_range] at h
  obtain ⟨i, h1, rfl⟩ := h
  simp [withNqb, wireTy, h1]

theorem holds_init (n : Nat) : Holds (withNqb n : St L) ((List.range n).map .inp) := by
  unfold Holds withNqb
  rw [List.map_map]
  apply List.map_congr_left
  intro i h
  simp [eval, List.mem_range.1 h]

/-! ### Counting qubits -/

theorem foldl_max (is : List Int) (i : Int) :
    i ≤ is.foldl max i ∧ (∀ j ∈ is, j ≤ is.foldl max i) ∧ (is.foldl max i = i ∨ is.foldl max i ∈ is) := by
  induction is generalizing i with
  | nil => simp
  | cons j is ih =>
    obtain ⟨h1, h2, h3⟩ := ih (max i j)
    simp only [List.foldl_cons]
    refine ⟨by omega, ?_, ?_⟩
    · intro k hk
      rcases List.mem_cons.1 hk with rfl | hk
      · omega
      · exact h2 k hk
    · rcases h3 with h3 | h3
      · rcases Int.le_total i j with h | h
        · right; rw [h3, Int.max_eq_right h]; simp
        · left; rw [h3, Int.max_eq_left h]
      · right; simp [h3]

theorem pyMax_iff {is : List Int} {m : Int} : pyMax is = .ok m ↔ m ∈ is ∧ ∀ j ∈ is, j ≤ m := by
  cases is with
  | nil => simp [pyMax]
  | cons i is =>
    obtain ⟨h1, h2, h3⟩ := foldl_max is i
    simp only [pyMax, Except.ok.injEq]
    constructor
    · rintro rfl
      refine ⟨?_, ?_⟩
      · rcases h3 with h3 | h3
        · rw [h3]; simp
        · simp [h3]
      · simpa using ⟨h1, h2⟩
    · rintro ⟨h4, h5⟩
      have h6 : m ≤ is.foldl max i := by
        rcases List.mem_cons.1 h4 with rfl | h4
        · exact h1
        · exact h2 m h4
      have h7 : is.foldl max i ≤ m := by
        rcases h3 with h3 | h3
        · rw [h3]; exact h5 i (by simp)
        · exact h5 _ (by simp [h3])
      omega

theorem mem_ints {c : Com L} {i : Int} : i ∈ ints c ↔ Arg.idx i ∈ c.args := by
  simp only [ints, List.mem_filterMap]
  constructor
  · rintro ⟨a, h1, h2⟩
    cases a with
    | idx j => simp at h2; exact h2 ▸ h1
    | wire w => simp at h2
  · intro h; exact ⟨_, h, rfl⟩

theorem countQubits_ok {n m : Int} {cs : List (Com L)} (h : countQubits n cs = .ok m) :
    n ≤ m ∧ (∀ c ∈ cs, (ints c) ≠ [] ∧ ∀ i ∈ ints c, i < m) ∧
      (m = n ∨ ∃ c ∈ cs, (m - 1) ∈ ints c) := by
  induction cs generalizing n with
  | nil => cases h; simp
  | cons c cs ih =>
    rw [countQubits] at h
    cases h1 : pyMax (ints c) with
    | error e => rw [h1] at h; cases h
    | ok k =>
      rw [h1] at h
      obtain ⟨e1, e2, e3⟩ := ih h
      obtain ⟨m1, m2⟩ := pyMax_iff.1 h1
      refine ⟨by omega, ?_, ?_⟩
      · intro c' hc'
        rcases List.mem_cons.1 hc' with rfl | hc'
        · exact ⟨List.ne_nil_of_mem m1, fun i hi => by have := m2 i hi; omega⟩
        · exact e2 c' hc'
      · rcases e3 with e3 | ⟨c', h2, h3⟩
        · rcases Int.le_total n (k + 1) with h4 | h4
          · right
            refine ⟨c, by simp, ?_⟩
            rw [e3, Int.max_eq_right h4]; simpa using m1
          · left; rw [e3, Int.max_eq_left h4]
        · right; exact ⟨c', by simp [h2], h3⟩

theorem countQubits_exists {n : Int} {cs : List (Com L)} (h : ∀ c ∈ cs, ints c ≠ []) :
    ∃ m, countQubits n cs = .ok m := by
  induction cs generalizing n with
  | nil => exact ⟨n, rfl⟩
  | cons c cs ih =>
    rw [countQubits]
    cases h1 : ints c with
    | nil => exact absurd h1 (h c (by simp))
    | cons i is =>
      exact ih fun c hc => h c (by simp [hc])

theorem ints_ne {c : Com L} (hi : Indexed c) : ints c ≠ [] ↔ c.args ≠ [] := by
  constructor
  · intro h h'
    apply h; simp [ints, h']
  · intro h h'
    obtain ⟨a, as, h2⟩ := List.exists_cons_of_ne_nil h
    obtain ⟨i, hi'⟩ := hi a (by simp [h2])
    have : i ∈ ints c := mem_ints.2 (by rw [h2, hi']; simp)
    rw [h'] at this; simp at this

theorem fromComs_ok {cs : List (Com L)} {r : Circ L} (h : fromComs cs = .ok r) :
    ∃ m st, countQubits 0 cs = .ok m ∧ extend (withNqb m.toNat) cs = .ok st ∧ Live st ∧
      r = ⟨st.qubits, st.nodes, st.tracked⟩ := by
  unfold fromComs at h
  cases h1 : countQubits 0 cs with
  | error e => rw [h1] at h; cases h
  | ok m =>
    cases h2 : extend (withNqb m.toNat) cs with
    | error e =>
      rw [h1] at h
      simp only [bind, Except.bind] at h
      rw [h2] at h; cases h
    | ok st =>
      rw [h1] at h
      simp only [bind, Except.bind] at h
      rw [h2] at h
      obtain ⟨h3, h4⟩ := setOutputs_iff.1 h
      exact ⟨m, st, rfl, h2, h3, h4⟩

end Verif.PyBuild
