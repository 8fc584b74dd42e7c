import Verif.Model.Tket1Spec

namespace Verif.Tket1

/-- The object exists after the events. -/
def Alive (t : List Ev) (k : Kind) (i : Nat) : Prop := .alloc k i ∈ t ∧ .free k i ∉ t

/-- The memory was used correctly, and `P` are the objects that somebody owns. Objects of the kinds `ks` that
nobody owns do not exist. -/
structure Ok (ks : List Kind) (m : Mem) (P : Kind → Nat → Prop) : Prop where
  bound : ∀ e ∈ m.trace, e.id < m.next
  safe : Safe m.trace
  owned : ∀ k i, P k i → Alive m.trace k i
  exact : ∀ k i, k ∈ ks → Alive m.trace k i → P k i

theorem Safe.snoc {t : List Ev} {e : Ev} (h : Safe t) (he : Allowed t e) : Safe (t ++ [e]) := by
  intro pre x post hx
  rcases List.append_eq_append_iff.mp hx with ⟨a, h1, h2⟩ | ⟨c, h1, h2⟩
  · -- the list ends in `t`
    cases a with
    | nil =>
      simp only [List.nil_append, List.append_nil, List.cons.injEq] at h1 h2
      rw [h1, ← h2.1]
      exact he
    | cons b a =>
      simp only [List.cons_append, List.cons.injEq] at h2
      have := congrArg List.length h2.2
      simp at this
  · cases c with
    | nil =>
      simp only [List.nil_append, List.append_nil, List.cons.injEq] at h1 h2
      rw [← h1, h2.1]
      exact he
    | cons b c =>
      simp only [List.cons_append, List.cons.injEq] at h2
      rw [← h2.1] at h1
      exact h pre x c h1

theorem Ok.alloc {ks : List Kind} {m : Mem} {P : Kind → Nat → Prop} (h : Ok ks m P) (k : Kind) :
    Ok ks (m.alloc k).2 (fun k' i => P k' i ∨ (k' = k ∧ i = m.next)) where
  bound e he := by
    rcases List.mem_append.mp he with he | he
    · exact Nat.lt_succ_of_lt (h.bound e he)
    · rw [List.mem_singleton.mp he]
      exact Nat.lt_succ_self _
  safe := h.safe.snoc (fun e he => Nat.ne_of_lt (h.bound e he))
  owned k' i hp := by
    rcases hp with hp | ⟨rfl, rfl⟩
    · obtain ⟨h1, h2⟩ := h.owned k' i hp
      exact ⟨List.mem_append_left _ h1, fun hm => by
        rcases List.mem_append.mp hm with hm | hm
        · exact h2 hm
        · cases List.mem_singleton.mp hm⟩
    · refine ⟨List.mem_append_right _ List.mem_cons_self, fun hm => ?_⟩
      rcases List.mem_append.mp hm with hm | hm
      · exact Nat.lt_irrefl _ (h.bound _ hm)
      · cases List.mem_singleton.mp hm
  exact k' i hk ha := by
    rcases List.mem_append.mp ha.1 with h1 | h1
    · exact .inl (h.exact k' i hk ⟨h1, fun hm => ha.2 (List.mem_append_left _ hm)⟩)
    · cases List.mem_singleton.mp h1
      exact .inr ⟨rfl, rfl⟩

theorem Ok.use {ks : List Kind} {m : Mem} {P : Kind → Nat → Prop} (h : Ok ks m P) {k : Kind} {i : Nat} (hp : P k i) :
    Ok ks (m.use k i) P where
  bound e he := by
    rcases List.mem_append.mp he with he | he
    · exact h.bound e he
    · rw [List.mem_singleton.mp he]
      exact h.bound (.alloc k i) (h.owned k i hp).1
  safe := h.safe.snoc (h.owned k i hp)
  owned k' j hp' := by
    obtain ⟨h1, h2⟩ := h.owned k' j hp'
    exact ⟨List.mem_append_left _ h1, fun hm => by
      rcases List.mem_append.mp hm with hm | hm
      · exact h2 hm
      · cases List.mem_singleton.mp hm⟩
  exact k' j hk ha := by
    rcases List.mem_append.mp ha.1 with h1 | h1
    · exact h.exact k' j hk ⟨h1, fun hm => ha.2 (List.mem_append_left _ hm)⟩
    · cases List.mem_singleton.mp h1

theorem Ok.free {ks : List Kind} {m : Mem} {P : Kind → Nat → Prop} (h : Ok ks m P) {k : Kind} {i : Nat} (hp : P k i) :
    Ok ks (m.free k i) (fun k' j => P k' j ∧ ¬ (k' = k ∧ j = i)) where
  bound e he := by
    rcases List.mem_append.mp he with he | he
    · exact h.bound e he
    · rw [List.mem_singleton.mp he]
      exact h.bound (.alloc k i) (h.owned k i hp).1
  safe := h.safe.snoc (h.owned k i hp)
  owned k' j hp' := by
    obtain ⟨h1, h2⟩ := h.owned k' j hp'.1
    refine ⟨List.mem_append_left _ h1, fun hm => ?_⟩
    rcases List.mem_append.mp hm with hm | hm
    · exact h2 hm
    · cases List.mem_singleton.mp hm
      exact hp'.2 ⟨rfl, rfl⟩
  exact k' j hk ha := by
    rcases List.mem_append.mp ha.1 with h1 | h1
    · refine ⟨h.exact k' j hk ⟨h1, fun hm => ha.2 (List.mem_append_left _ hm)⟩, ?_⟩
      rintro ⟨rfl, rfl⟩
      exact ha.2 (List.mem_append_right _ List.mem_cons_self)
    · cases List.mem_singleton.mp h1

theorem Ok.congr {ks : List Kind} {m : Mem} {P Q : Kind → Nat → Prop} (h : Ok ks m P) (hq : ∀ k i, P k i ↔ Q k i) : Ok ks m Q where
  bound := h.bound
  safe := h.safe
  owned k i hp := h.owned k i ((hq k i).mpr hp)
  exact k i hk ha := (hq k i).mp (h.exact k i hk ha)

/-- Objects of other kinds may be lost. -/
theorem Ok.lose {ks : List Kind} {m : Mem} {P Q : Kind → Nat → Prop} (h : Ok ks m P) (hq : ∀ k i, Q k i → P k i)
    (hl : ∀ k i, k ∈ ks → P k i → Q k i) : Ok ks m Q where
  bound := h.bound
  safe := h.safe
  owned k i hp := h.owned k i (hq k i hp)
  exact k i hk ha := hl k i hk (h.exact k i hk ha)

/-- Fresh objects belong to nobody. -/
theorem Ok.fresh {ks : List Kind} {m : Mem} {P : Kind → Nat → Prop} (h : Ok ks m P) (k : Kind) : ¬ P k m.next :=
  fun hp => Nat.lt_irrefl _ (h.bound _ (h.owned k _ hp).1)

theorem Ok.create {ks : List Kind} {m : Mem} {P : Kind → Nat → Prop} (_ : Ok ks m P) (k : Kind) (t : Text) (found : Bool) :
    (∃ e, create k t found m = (.error e, m)) ∨ (create k t found m = (.ok m.next, (m.alloc k).2)) := by
  unfold Tket1.create
  cases t with
  | failed => exact .inl ⟨_, rfl⟩
  | zero => exact .inl ⟨_, rfl⟩
  | ok =>
    cases found with
    | false => exact .inl ⟨_, rfl⟩
    | true => exact .inr rfl

theorem Ok.run {ks : List Kind} {m : Mem} {P : Kind → Nat → Prop} (h : Ok ks m P) {p id code : Nat} (hp : P .pass p)
    (hc : P .circuit id) : Ok ks (run p id code m).2 P := by
  unfold Tket1.run
  simp only
  split
  · exact (h.use hc).use hp
  · exact (h.use hc).use hp

theorem Ok.runFromJson {ks : List Kind} {m : Mem} {P : Kind → Nat → Prop} (h : Ok ks m P) {t : Text} {found : Bool} {id code : Nat}
    (hc : P .circuit id) : Ok ks (runFromJson t found id code m).2 P := by
  unfold Tket1.runFromJson
  rcases h.create .pass t found with ⟨e, he⟩ | he
  · rw [he]
    exact h
  · rw [he]
    simp only
    refine Ok.congr (((h.alloc .pass).run (p := m.next) (id := id) (code := code) (.inr ⟨rfl, rfl⟩) (.inl hc)).free (k := .pass) (i := m.next) (.inr ⟨rfl, rfl⟩)) ?_
    intro k i
    constructor
    · rintro ⟨h1 | h1, h2⟩
      · exact h1
      · exact absurd h1 h2
    · intro h1
      refine ⟨.inl h1, ?_⟩
      rintro ⟨rfl, rfl⟩
      exact h.fresh _ h1

theorem Ok.toSerial {C : Type} {ks : List Kind} {m : Mem} {P : Kind → Nat → Prop} (h : Ok ks m P) {id : Nat} {a : JsonAns C}
    (hc : P .circuit id) (hg : .string ∉ ks ∨ a.Good) : Ok ks (toSerial id a m).2 P := by
  have hu := h.use hc
  have hlose : .string ∉ ks → ∀ {m' : Mem}, Ok ks m' (fun k' i => P k' i ∨ (k' = .string ∧ i = (m.use .circuit id).next)) → Ok ks m' P := by
    intro hs m' hm
    refine hm.lose (fun k i hp => .inl hp) ?_
    rintro k i hk (hp | ⟨rfl, -⟩)
    · exact hp
    · exact absurd hk hs
  unfold Tket1.toSerial
  cases hs : a.string with
  | none =>
    simp only
    split
    · exact hu
    · exact hu
  | some c =>
    have ha := hu.alloc .string
    simp only
    split
    · rename_i hcode
      rcases hg with hg | hg
      · exact hlose hg ha
      · unfold JsonAns.Good at hg
        rw [if_neg hcode, hs] at hg
        cases hg
    · have ha' := ha.use (k := .string) (i := (m.use .circuit id).next) (.inr ⟨rfl, rfl⟩)
      rename_i hcode
      cases c with
      | none =>
        rcases hg with hg | hg
        · exact hlose hg ha'
        · unfold JsonAns.Good at hg
          rw [if_pos (by simpa using hcode), hs] at hg
          obtain ⟨c, hg⟩ := hg
          cases hg
      | some c =>
        refine Ok.congr (ha'.free (k := .string) (i := (m.use .circuit id).next) (.inr ⟨rfl, rfl⟩)) ?_
        intro k i
        constructor
        · rintro ⟨h1 | h1, h2⟩
          · exact h1
          · exact absurd h1 h2
        · intro h1
          refine ⟨.inl h1, ?_⟩
          rintro ⟨rfl, rfl⟩
          exact hu.fresh _ h1

/-! ### Programs -/

/-- Objects of variables. -/
def Env.owns (e : Env) (k : Kind) (i : Nat) : Prop := ∃ x, (k, x, i) ∈ e.vars

/-- Variables own their objects alone. -/
structure EnvOk (ks : List Kind) (e : Env) : Prop where
  mem : Ok ks e.mem e.owns
  one : ∀ k x i j, (k, x, i) ∈ e.vars → (k, x, j) ∈ e.vars → i = j
  alone : ∀ k x y i, (k, x, i) ∈ e.vars → (k, y, i) ∈ e.vars → x = y

theorem Env.get_mem {e : Env} {k : Kind} {x i : Nat} (h : e.get k x = some i) : (k, x, i) ∈ e.vars := by
  unfold Env.get at h
  simp only [Option.map_eq_some_iff] at h
  obtain ⟨⟨k', x', i'⟩, h1, rfl⟩ := h
  have h2 := List.find?_some h1
  simp only [decide_eq_true_eq] at h2
  obtain ⟨rfl, rfl⟩ := h2
  exact List.mem_of_find?_eq_some h1

theorem Env.get_none {e : Env} {k : Kind} {x : Nat} (h : e.get k x = none) (i : Nat) : (k, x, i) ∉ e.vars := by
  unfold Env.get at h
  simp only [Option.map_eq_none_iff, List.find?_eq_none] at h
  intro hm
  exact h _ hm (by simp)

theorem mem_drop {e : Env} {k : Kind} {x : Nat} {v : Kind × Nat × Nat} (h : v ∈ (e.drop k x).vars) :
    v ∈ e.vars ∧ ¬ (v.1 = k ∧ v.2.1 = x) := by
  unfold Env.drop at h
  split at h
  · rename_i hn
    refine ⟨h, ?_⟩
    rintro ⟨rfl, rfl⟩
    exact Env.get_none hn _ h
  · simp only [List.mem_filter, decide_eq_true_eq] at h
    exact h

theorem EnvOk.drop {ks : List Kind} {e : Env} (h : EnvOk ks e) (k : Kind) (x : Nat) : EnvOk ks (e.drop k x) where
  mem := by
    unfold Env.drop
    split
    · exact h.mem
    · rename_i i hg
      have hm := Env.get_mem hg
      refine Ok.congr (h.mem.free (k := k) (i := i) ⟨x, hm⟩) ?_
      intro k' j
      constructor
      · rintro ⟨⟨y, hy⟩, hne⟩
        refine ⟨y, ?_⟩
        simp only [List.mem_filter, decide_eq_true_eq]
        refine ⟨hy, ?_⟩
        rintro ⟨rfl, rfl⟩
        exact hne ⟨rfl, h.one _ _ _ _ hy hm⟩
      · rintro ⟨y, hy⟩
        simp only [List.mem_filter, decide_eq_true_eq] at hy
        refine ⟨⟨y, hy.1⟩, ?_⟩
        rintro ⟨rfl, rfl⟩
        exact hy.2 ⟨rfl, h.alone _ _ _ _ hy.1 hm⟩
  one k' y i j hi hj := h.one k' y i j (mem_drop hi).1 (mem_drop hj).1
  alone k' y z i hi hj := h.alone k' y z i (mem_drop hi).1 (mem_drop hj).1

/-- The statements keep the invariant. -/
theorem EnvOk.exec {C : Type} {ks : List Kind} {e : Env} (h : EnvOk ks e) (s : Stmt C) (hg : .string ∉ ks ∨ s.Good) :
    EnvOk ks (exec e s) := by
  cases s with
  | create k x t found =>
    unfold Tket1.exec
    simp only
    split
    · exact h
    · rcases h.mem.create k t found with ⟨er, he⟩ | he
      · rw [he]
        exact h
      · rw [he]
        simp only
        -- the new object has no variable while the old one is dropped
        have ha := h.mem.alloc k
        have hfresh : ∀ y, (k, y, e.mem.next) ∉ e.vars := fun y hy => h.mem.fresh k ⟨y, hy⟩
        have key : Ok ks (Env.drop ⟨e.vars, (e.mem.alloc k).2⟩ k x).mem
            (fun k' j => (Env.drop ⟨e.vars, (e.mem.alloc k).2⟩ k x).owns k' j ∨ (k' = k ∧ j = e.mem.next)) := by
          have hgetEq : Env.get ⟨e.vars, (e.mem.alloc k).2⟩ k x = e.get k x := rfl
          unfold Env.drop
          rw [hgetEq]
          cases hget : e.get k x with
          | none => exact ha
          | some i =>
            have hm := Env.get_mem hget
            refine Ok.congr (ha.free (k := k) (i := i) (.inl ⟨x, hm⟩)) ?_
            intro k' j
            constructor
            · rintro ⟨⟨y, hy⟩ | h1, hne⟩
              · refine .inl ⟨y, ?_⟩
                simp only [List.mem_filter, decide_eq_true_eq]
                refine ⟨hy, ?_⟩
                rintro ⟨rfl, rfl⟩
                exact hne ⟨rfl, h.one _ _ _ _ hy hm⟩
              · exact .inr h1
            · rintro (⟨y, hy⟩ | ⟨rfl, rfl⟩)
              · simp only [List.mem_filter, decide_eq_true_eq] at hy
                refine ⟨.inl ⟨y, hy.1⟩, ?_⟩
                rintro ⟨rfl, rfl⟩
                exact hy.2 ⟨rfl, h.alone _ _ _ _ hy.1 hm⟩
              · refine ⟨.inr ⟨rfl, rfl⟩, ?_⟩
                rintro ⟨-, hj⟩
                exact hfresh x (hj ▸ hm)
        have hsub : ∀ v ∈ (Env.drop ⟨e.vars, (e.mem.alloc k).2⟩ k x).vars, v ∈ e.vars ∧ ¬ (v.1 = k ∧ v.2.1 = x) :=
          fun v hv => mem_drop (e := ⟨e.vars, (e.mem.alloc k).2⟩) hv
        refine ⟨Ok.congr key ?_, ?_, ?_⟩
        · intro k' j
          constructor
          · rintro (⟨y, hy⟩ | ⟨rfl, rfl⟩)
            · exact ⟨y, List.mem_cons_of_mem _ hy⟩
            · exact ⟨x, List.mem_cons_self⟩
          · rintro ⟨y, hy⟩
            rcases List.mem_cons.mp hy with h' | h'
            · cases h'
              exact .inr ⟨rfl, rfl⟩
            · exact .inl ⟨y, h'⟩
        · intro k' y i j hi hj
          rcases List.mem_cons.mp hi with h1 | h1 <;> rcases List.mem_cons.mp hj with h2 | h2
          · cases h1
            cases h2
            rfl
          · cases h1
            exact absurd ⟨rfl, rfl⟩ (hsub _ h2).2
          · cases h2
            exact absurd ⟨rfl, rfl⟩ (hsub _ h1).2
          · exact h.one k' y i j (hsub _ h1).1 (hsub _ h2).1
        · intro k' y z i hi hj
          rcases List.mem_cons.mp hi with h1 | h1 <;> rcases List.mem_cons.mp hj with h2 | h2
          · cases h1
            cases h2
            rfl
          · cases h1
            exact absurd (hsub _ h2).1 (hfresh z)
          · cases h2
            exact absurd (hsub _ h1).1 (hfresh y)
          · exact h.alone k' y z i (hsub _ h1).1 (hsub _ h2).1
  | read x a =>
    unfold Tket1.exec
    simp only
    split
    · exact h
    · rename_i i hget
      exact ⟨h.mem.toSerial ⟨x, Env.get_mem hget⟩ hg, h.one, h.alone⟩
  | into x a =>
    unfold Tket1.exec
    simp only
    split
    · exact h
    · rename_i i hget
      exact EnvOk.drop (e := ⟨e.vars, _⟩) ⟨h.mem.toSerial ⟨x, Env.get_mem hget⟩ hg, h.one, h.alone⟩ .circuit x
  | run p x code =>
    unfold Tket1.exec
    simp only
    split
    · rename_i i j h1 h2
      exact ⟨h.mem.run ⟨p, Env.get_mem h1⟩ ⟨x, Env.get_mem h2⟩, h.one, h.alone⟩
    · exact h
  | runJson t found x code =>
    unfold Tket1.exec
    simp only
    split
    · exact h
    · rename_i i hget
      exact ⟨h.mem.runFromJson ⟨x, Env.get_mem hget⟩, h.one, h.alone⟩
  | drop k x => exact h.drop k x
  | move k x y =>
    unfold Tket1.exec
    simp only
    split
    · exact h
    · rename_i i hget
      have hm := Env.get_mem hget
      split
      · exact h
      · rename_i hxy
        have hmf : ∀ v, v ∈ (e.forget k x).vars ↔ v ∈ e.vars ∧ ¬ (v.1 = k ∧ v.2.1 = x) := by
          intro v
          simp only [Env.forget, List.mem_filter, decide_eq_true_eq]
        have hgetEq : (e.forget k x).get k y = e.get k y := by
          unfold Env.get Env.forget
          rw [List.find?_filter]
          congr 2
          funext v
          by_cases h1 : v.1 = k ∧ v.2.1 = y
          · have h2 : ¬ (v.1 = k ∧ v.2.1 = x) := fun h2 => hxy (h2.2.symm.trans h1.2)
            rw [decide_eq_true h1, decide_eq_true h2]
            rfl
          · simp only [h1]
            simp
        have key : Ok ks ((e.forget k x).drop k y).mem
            (fun k' j => ((e.forget k x).drop k y).owns k' j ∨ (k' = k ∧ j = i)) := by
          unfold Env.drop
          rw [hgetEq]
          cases hgy : e.get k y with
          | none =>
            refine Ok.congr h.mem ?_
            intro k' j
            constructor
            · rintro ⟨z, hz⟩
              by_cases hzx : k' = k ∧ z = x
              · obtain ⟨rfl, rfl⟩ := hzx
                exact .inr ⟨rfl, h.one _ _ _ _ hz hm⟩
              · exact .inl ⟨z, (hmf _).mpr ⟨hz, hzx⟩⟩
            · rintro (⟨z, hz⟩ | ⟨rfl, rfl⟩)
              · exact ⟨z, ((hmf _).mp hz).1⟩
              · exact ⟨x, hm⟩
          | some l =>
            have hl := Env.get_mem hgy
            refine Ok.congr (h.mem.free (k := k) (i := l) ⟨y, hl⟩) ?_
            intro k' j
            constructor
            · rintro ⟨⟨z, hz⟩, hne⟩
              by_cases hzx : k' = k ∧ z = x
              · obtain ⟨rfl, rfl⟩ := hzx
                exact .inr ⟨rfl, h.one _ _ _ _ hz hm⟩
              · refine .inl ⟨z, ?_⟩
                simp only [List.mem_filter, decide_eq_true_eq]
                refine ⟨(hmf _).mpr ⟨hz, hzx⟩, ?_⟩
                rintro ⟨rfl, rfl⟩
                exact hne ⟨rfl, h.one _ _ _ _ hz hl⟩
            · rintro (⟨z, hz⟩ | ⟨rfl, rfl⟩)
              · simp only [List.mem_filter, decide_eq_true_eq] at hz
                have hz1 := ((hmf _).mp hz.1).1
                refine ⟨⟨z, hz1⟩, ?_⟩
                rintro ⟨rfl, rfl⟩
                exact hz.2 ⟨rfl, h.alone _ _ _ _ hz1 hl⟩
              · refine ⟨⟨x, hm⟩, ?_⟩
                rintro ⟨-, rfl⟩
                exact hxy (h.alone _ _ _ _ hm hl)
        have hsub : ∀ v ∈ ((e.forget k x).drop k y).vars, v ∈ e.vars ∧ ¬ (v.1 = k ∧ v.2.1 = x) ∧ ¬ (v.1 = k ∧ v.2.1 = y) := by
          intro v hv
          obtain ⟨h1, h2⟩ := mem_drop hv
          obtain ⟨h3, h4⟩ := (hmf v).mp h1
          exact ⟨h3, h4, h2⟩
        refine ⟨Ok.congr key ?_, ?_, ?_⟩
        · intro k' j
          constructor
          · rintro (⟨z, hz⟩ | ⟨rfl, rfl⟩)
            · exact ⟨z, List.mem_cons_of_mem _ hz⟩
            · exact ⟨y, List.mem_cons_self⟩
          · rintro ⟨z, hz⟩
            rcases List.mem_cons.mp hz with h' | h'
            · cases h'
              exact .inr ⟨rfl, rfl⟩
            · exact .inl ⟨z, h'⟩
        · intro k' z a b ha hb
          rcases List.mem_cons.mp ha with h1 | h1 <;> rcases List.mem_cons.mp hb with h2 | h2
          · cases h1
            cases h2
            rfl
          · cases h1
            exact absurd ⟨rfl, rfl⟩ (hsub _ h2).2.2
          · cases h2
            exact absurd ⟨rfl, rfl⟩ (hsub _ h1).2.2
          · exact h.one k' z a b (hsub _ h1).1 (hsub _ h2).1
        · intro k' z w a ha hb
          rcases List.mem_cons.mp ha with h1 | h1 <;> rcases List.mem_cons.mp hb with h2 | h2
          · cases h1
            cases h2
            rfl
          · cases h1
            have := h.alone _ _ _ _ (hsub _ h2).1 hm
            subst this
            exact absurd ⟨rfl, rfl⟩ (hsub _ h2).2.1
          · cases h2
            have := h.alone _ _ _ _ (hsub _ h1).1 hm
            subst this
            exact absurd ⟨rfl, rfl⟩ (hsub _ h1).2.1
          · exact h.alone k' z w a (hsub _ h1).1 (hsub _ h2).1

theorem EnvOk.init (ks : List Kind) : EnvOk ks ⟨[], 0, []⟩ where
  mem := {
    bound := fun _ h => (List.not_mem_nil h).elim
    safe := by
      intro pre e post h
      have := congrArg List.length h
      simp at this
    owned := by
      rintro k i ⟨x, hx⟩
      cases hx
    exact := by
      rintro k i - ⟨h, -⟩
      cases h }
  one := fun _ _ _ _ h => (List.not_mem_nil h).elim
  alone := fun _ _ _ _ h => (List.not_mem_nil h).elim

theorem EnvOk.all {C : Type} {ks : List Kind} : ∀ (p : List (Stmt C)) {e : Env}, EnvOk ks e → (.string ∉ ks ∨ ∀ s ∈ p, s.Good) →
    EnvOk ks (p.foldl Tket1.exec e)
  | [], _, h, _ => h
  | s :: p, e, h, hg => by
    refine EnvOk.all p (h.exec s ?_) ?_
    · exact hg.imp id (fun hg => hg s List.mem_cons_self)
    · exact hg.imp id (fun hg s hs => hg s (List.mem_cons_of_mem _ hs))

theorem EnvOk.drops {ks : List Kind} : ∀ (xs : List (Kind × Nat)) {e : Env}, EnvOk ks e →
    EnvOk ks (xs.foldl (fun e v => e.drop v.1 v.2) e) ∧
      ∀ v ∈ (xs.foldl (fun e v => e.drop v.1 v.2) e).vars, v ∈ e.vars ∧ (v.1, v.2.1) ∉ xs
  | [], e, h => ⟨h, fun v hv => ⟨hv, List.not_mem_nil⟩⟩
  | x :: xs, e, h => by
    obtain ⟨h1, h2⟩ := EnvOk.drops xs (h.drop x.1 x.2)
    refine ⟨h1, fun v hv => ?_⟩
    obtain ⟨h3, h4⟩ := h2 v hv
    obtain ⟨h5, h6⟩ := mem_drop h3
    refine ⟨h5, fun hm => ?_⟩
    rcases List.mem_cons.mp hm with rfl | h'
    · exact h6 ⟨rfl, rfl⟩
    · exact h4 h'

theorem program_ok {C : Type} {ks : List Kind} (p : List (Stmt C)) (hg : .string ∉ ks ∨ ∀ s ∈ p, s.Good) :
    EnvOk ks (program p) ∧ (program p).vars = [] := by
  obtain ⟨h1, h2⟩ := EnvOk.drops ((p.foldl exec ⟨[], 0, []⟩).vars.map (fun v => (v.1, v.2.1))) (EnvOk.all p (EnvOk.init ks) hg)
  refine ⟨h1, List.eq_nil_iff_forall_not_mem.mpr fun v hv => ?_⟩
  obtain ⟨h3, h4⟩ := h2 v hv
  exact h4 (List.mem_map.mpr ⟨v, h3, rfl⟩)

theorem Ok.clean {ks : List Kind} {m : Mem} {P : Kind → Nat → Prop} (h : Ok ks m P) (hp : ∀ k i, ¬ P k i) : Clean m.trace ks := by
  intro k hk i ha
  apply Classical.byContradiction
  intro hf
  exact hp k i (h.exact k i hk ⟨ha, hf⟩)

/-! ### Regions -/

theorem Ok.region {C : Type} {ks : List Kind} {m : Mem} {P : Kind → Nat → Prop} (h : Ok ks m P) (a : RegionAns C)
    (hg : .string ∉ ks ∨ a.json.Good) : Ok ks (region a m).2 P := by
  have hend : ∀ {m' : Mem}, Ok ks m' (fun k' i => P k' i ∨ (k' = .circuit ∧ i = m.next)) → Ok ks (m'.free .circuit m.next) P := by
    intro m' h'
    refine Ok.congr (h'.free (k := .circuit) (i := m.next) (.inr ⟨rfl, rfl⟩)) ?_
    intro k i
    constructor
    · rintro ⟨h1 | h1, h2⟩
      · exact h1
      · exact absurd h1 h2
    · intro h1
      refine ⟨.inl h1, ?_⟩
      rintro ⟨rfl, rfl⟩
      exact h.fresh _ h1
  unfold Tket1.region
  rcases h.create .circuit a.circuit a.found with ⟨e, he⟩ | he
  · rw [he]
    exact h
  · rw [he]
    simp only
    have h1 := (h.alloc .circuit).runFromJson (t := a.pass) (found := a.passFound) (id := m.next) (code := a.code) (.inr ⟨rfl, rfl⟩)
    split
    · rename_i e m' hr
      rw [hr] at h1
      exact hend h1
    · rename_i m' hr
      rw [hr] at h1
      exact hend (h1.toSerial (.inr ⟨rfl, rfl⟩) hg)

theorem Ok.regions {C : Type} {ks : List Kind} {P : Kind → Nat → Prop} : ∀ (as : List (RegionAns C)) {m : Mem}, Ok ks m P →
    (.string ∉ ks ∨ ∀ a ∈ as, a.json.Good) → Ok ks (regions as m).2 P
  | [], _, h, _ => h
  | a :: as, m, h, hg => by
    have h1 := h.region a (hg.imp id (fun hg => hg a List.mem_cons_self))
    unfold Tket1.regions
    split
    · rename_i e m' hr
      rw [hr] at h1
      exact h1
    · rename_i c m' hr
      rw [hr] at h1
      have h2 := Ok.regions as h1 (hg.imp id (fun hg s hs => hg s (List.mem_cons_of_mem _ hs)))
      split
      · rename_i e m'' hr'
        rw [hr'] at h2
        exact h2
      · rename_i cs m'' hr'
        rw [hr'] at h2
        exact h2

end Verif.Tket1
