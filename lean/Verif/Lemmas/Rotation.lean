import Verif.Model.RotationSpec

/-!
# Lemmas on the generated code
-/

namespace Tket.Rotation

open Tket.Dbl

/-! ## The builder -/

/-- In the finished program `P` the current block continues with `rest` and ends with `t`, and the
other blocks are finished. -/
def Fin (P : List Block) (st : St) (rest : List (Reg × LOp)) (t : Option Term) : Prop :=
  ∃ pre, st.blocks[st.cur]? = some ⟨pre, none⟩ ∧ P[st.cur]? = some ⟨pre ++ rest, t⟩ ∧
    ∀ i, i ≠ st.cur → i < st.blocks.length → P[i]? = st.blocks[i]?

theorem fin_push {P : List Block} {st : St} {r : Reg} {o : LOp} {rest t}
    (h : Fin P (st.push r o) rest t) : Fin P st ((r, o) :: rest) t := by
  obtain ⟨pre, h1, h2, h3⟩ := h
  simp only [St.push, List.getElem?_modify, List.length_modify] at h1 h2 h3
  cases hb : st.blocks[st.cur]? with
  | none => rw [hb] at h1; simp at h1
  | some b =>
    rw [hb] at h1
    obtain ⟨bi, bt⟩ := b
    simp at h1
    obtain ⟨rfl, rfl⟩ := h1
    refine ⟨bi, hb, ?_, ?_⟩
    · rw [h2]
      simp
    · intro i hi hl
      rw [h3 i hi hl]
      simp [Ne.symm hi]

theorem fin_tmp {P : List Block} {st : St} {k : Nat} {rest t}
    (h : Fin P (St.mk st.blocks st.cur k) rest t) : Fin P st rest t := h

theorem fin_emit {P : List Block} {st : St} {o : LOp} {rest t}
    (h : Fin P (st.emit o).1 rest t) : Fin P st ((.tmp st.tmp, o) :: rest) t :=
  fin_push (fin_tmp (st := st.push _ _) h)

theorem fin_finish {P : List Block} {st : St} {n : Nat} {v : Opnd} {rest t}
    (h : Fin P (st.finish n v) rest t) : Fin P st ((.wire n, .mov v) :: rest) t := fin_push h

/-- The code of the test for finite numbers. -/
def testCode (k : Nat) (x : Opnd) : List (Reg × LOp) :=
  [(.tmp k, .foeq x (.lit (.f (.inf false)))),
   (.tmp (k + 1), .foeq x (.lit (.f (.inf true)))),
   (.tmp (k + 2), .funo x (.lit (.f (.fin false 0)))),
   (.tmp (k + 3), .or (.reg (.tmp k)) (.reg (.tmp (k + 1)))),
   (.tmp (k + 4), .or (.reg (.tmp (k + 3))) (.reg (.tmp (k + 2)))),
   (.tmp (k + 5), .not (.reg (.tmp (k + 4))))]

theorem fin_test {P : List Block} {st : St} {x : Opnd} {rest t}
    (h : Fin P (emitFromHalfturns st x).1 rest t) : Fin P st (testCode st.tmp x ++ rest) t := by
  have h1 := fin_emit h
  have h2 := fin_emit h1
  have h3 := fin_emit h2
  have h4 := fin_emit h3
  have h5 := fin_emit h4
  exact fin_emit h5

theorem test_opnd (st : St) (x : Opnd) :
    (emitFromHalfturns st x).2 = .reg (.tmp (st.tmp + 5)) := rfl

theorem test_tmp (st : St) (x : Opnd) : (emitFromHalfturns st x).1.tmp = st.tmp + 6 := rfl

/-- The branch of `from_halfturns_unchecked`. -/
theorem fin_branch {P : List Block} {st : St} {ok : Opnd} {n : Nat} {v : Opnd} {rest t}
    (h : Fin P (st.branch ok n v) rest t)
    (hopen : ∃ pre, st.blocks[st.cur]? = some ⟨pre, none⟩) :
    Fin P st [] (some (.br ok (st.blocks.length + 1) st.blocks.length)) ∧
      P[st.blocks.length]? = some ⟨[], some (.panic errSignal errMsg)⟩ ∧
      P[st.blocks.length + 1]? = some ⟨(.wire n, .mov v) :: rest, t⟩ := by
  obtain ⟨pre0, hpre⟩ := hopen
  have hcur : st.cur < st.blocks.length := by
    rw [List.getElem?_eq_some_iff] at hpre
    exact hpre.1
  obtain ⟨pre, h1, h2, h3⟩ := h
  simp only [St.branch, St.position, St.terminate, St.finish, St.push, St.newBlock, List.length_append,
    List.length_modify, List.length_cons, List.length_nil, Nat.zero_add] at h1 h2 h3
  have e : ∀ i, ((((st.blocks ++ [(⟨[], none⟩ : Block)]).modify st.blocks.length
      (fun b => { b with term := some (.panic errSignal errMsg) }) ++ [(⟨[], none⟩ : Block)]).modify
      (st.blocks.length + 1) (fun b => { b with ins := b.ins ++ [(.wire n, .mov v)] })).modify st.cur
      (fun b => { b with term := some (.br ok (st.blocks.length + 1) st.blocks.length) }) :
        List Block)[i]? =
      if i = st.cur then some ⟨pre0, some (.br ok (st.blocks.length + 1) st.blocks.length)⟩
      else if i < st.blocks.length then st.blocks[i]?
      else if i = st.blocks.length then some ⟨[], some (.panic errSignal errMsg)⟩
      else if i = st.blocks.length + 1 then some ⟨[(.wire n, .mov v)], none⟩
      else none := by
    intro i
    simp only [List.getElem?_modify, List.getElem?_append, List.length_append, List.length_modify,
      List.length_cons, List.length_nil, Nat.zero_add]
    by_cases c1 : i = st.cur
    · subst c1
      have a1 : ¬ st.blocks.length + 1 = st.cur := by omega
      have a2 : st.cur < st.blocks.length + 1 := by omega
      have a3 : ¬ st.blocks.length = st.cur := by omega
      rw [List.getElem?_eq_some_iff] at hpre
      obtain ⟨_, hpre⟩ := hpre
      simp [a1, a2, a3, hcur, hpre]
    · by_cases c2 : i < st.blocks.length
      · have a1 : ¬ st.blocks.length + 1 = i := by omega
        have a2 : i < st.blocks.length + 1 := by omega
        have a3 : ¬ st.blocks.length = i := by omega
        simp [a1, a2, a3, c1, Ne.symm c1, c2]
      · by_cases c3 : i = st.blocks.length
        · subst c3
          simp [c1, Ne.symm c1]
        · by_cases c4 : i = st.blocks.length + 1
          · subst c4
            simp [c1, Ne.symm c1]
          · have a1 : ¬ i < st.blocks.length + 1 := by omega
            have : i - (st.blocks.length + 1) ≠ 0 := by omega
            obtain ⟨k, hk⟩ := Nat.exists_eq_succ_of_ne_zero this
            simp [a1, c1, c2, c3, c4, hk]
  have len : ∀ i, i < st.blocks.length + 2 → i ≠ st.blocks.length + 1 → P[i]? =
      if i = st.cur then some ⟨pre0, some (.br ok (st.blocks.length + 1) st.blocks.length)⟩
      else if i < st.blocks.length then st.blocks[i]?
      else if i = st.blocks.length then some ⟨[], some (.panic errSignal errMsg)⟩
      else if i = st.blocks.length + 1 then some ⟨[(.wire n, .mov v)], none⟩
      else none := fun i hi hne => (h3 i hne (by omega)).trans (e i)
  rw [e] at h1
  rw [if_neg (by omega), if_neg (by omega), if_neg (by omega), if_pos rfl] at h1
  simp only [Option.some.injEq, Block.mk.injEq] at h1
  obtain ⟨rfl, _⟩ := h1
  refine ⟨⟨pre0, hpre, ?_, ?_⟩, ?_, h2⟩
  · rw [len _ (by omega) (by omega), if_pos rfl]
    simp
  · intro i hi hl
    rw [len i (by omega) (by omega), if_neg hi, if_pos hl]
  · rw [len _ (by omega) (by omega), if_neg (by omega), if_neg (by omega), if_pos rfl]

/-! ## Running -/

theorem runIns_append (e : Env) (a b : List (Reg × LOp)) :
    runIns e (a ++ b) = (runIns e a).bind fun e => runIns e b := by
  induction a generalizing e with
  | nil => rfl
  | cons x a ih =>
    obtain ⟨r, o⟩ := x
    simp only [List.cons_append, runIns]
    cases o.eval e with
    | none => rfl
    | some v => exact ih _

theorem run_append {P : List Block} {fuel : Nat} {a b : List (Reg × LOp)} {t e e'}
    (h : runIns e a = some e') : run P fuel (a ++ b) t e = run P fuel b t e' := by
  conv => lhs; unfold run
  conv => rhs; unfold run
  rw [runIns_append, h]
  rfl

/-- The test for finite numbers. -/
theorem run_test {e : Env} {a : Nat} {y : F64} (k : Nat) (hx : e (.wire a) = some (.f y)) :
    ∃ e', runIns e (testCode k (inp a)) = some e' ∧ (∀ n, e' (.wire n) = e (.wire n)) ∧
      e' (.tmp (k + 5)) = some (.i (isFin y)) := by
  have hv : isFin y = !((oeq y (.inf false) || oeq y (.inf true)) || uno y (.fin false 0)) := by
    cases y with
    | nan => rfl
    | inf s => cases s <;> rfl
    | fin s m => rfl
  rw [hv]
  simp only [testCode, runIns, LOp.eval, Opnd.val, inp, Env.set, hx, reduceCtorEq, if_false, if_true,
    Reg.tmp.injEq, Nat.left_eq_add, Nat.add_left_cancel_iff, Nat.succ_ne_self, OfNat.ofNat_ne_zero,
    OfNat.ofNat_ne_one, OfNat.one_ne_ofNat, Nat.reduceEqDiff,
    Option.some.injEq, exists_eq_left', implies_true, true_and]

/-! ## Operations -/

/-- The current block is not ended. -/
def Open (st : St) : Prop := ∃ pre, st.blocks[st.cur]? = some ⟨pre, none⟩

theorem open_push {st : St} {r : Reg} {o : LOp} (h : Open st) : Open (st.push r o) := by
  obtain ⟨pre, h⟩ := h
  exact ⟨pre ++ [(r, o)], by simp [St.push, h]⟩

theorem open_emit {st : St} {o : LOp} (h : Open st) : Open (st.emit o).1 := by
  have := open_push (r := .tmp st.tmp) (o := o) h
  exact this

theorem open_test {st : St} {x : Opnd} (h : Open st) : Open (emitFromHalfturns st x).1 :=
  open_emit (open_emit (open_emit (open_emit (open_emit (open_emit h)))))

theorem open_branch {st : St} {ok : Opnd} {n : Nat} {v : Opnd} (h : Open st) :
    Open (st.branch ok n v) := by
  obtain ⟨pre, h⟩ := h
  have hcur : st.cur < st.blocks.length := by
    rw [List.getElem?_eq_some_iff] at h
    exact h.1
  have : ¬ st.cur = st.blocks.length + 1 := by omega
  refine ⟨[(.wire n, .mov v)], ?_⟩
  simp [St.branch, St.position, St.terminate, St.finish, St.push, St.newBlock, this]

theorem open_op {st st1 : St} {c : Instr} (h : Open st) (he : emitOp st c = some st1) : Open st1 := by
  obtain ⟨op, ins, out⟩ := c
  unfold emitOp at he
  split at he <;> simp only [Option.some.injEq, reduceCtorEq] at he <;> subst he
  all_goals first
    | exact open_push (open_emit h)
    | exact open_push h
    | exact open_branch (open_test h)
    | exact open_push (open_emit (open_emit (open_emit (open_test h))))

theorem get1 {s : SEnv} {a : Nat} {vs : List SVal} (h : s.gets [a] = some vs) :
    ∃ v, vs = [v] ∧ s a = some v := by
  unfold SEnv.gets at h
  split at h
  · rename_i v ws hv hw
    cases hw
    cases h
    exact ⟨v, rfl, hv⟩
  · cases h

theorem get2 {s : SEnv} {a b : Nat} {vs : List SVal} (h : s.gets [a, b] = some vs) :
    ∃ v w, vs = [v, w] ∧ s a = some v ∧ s b = some w := by
  unfold SEnv.gets at h
  split at h
  · rename_i v ws hv hw
    obtain ⟨w, rfl, hb⟩ := get1 hw
    cases h
    exact ⟨v, w, rfl, hv, hb⟩
  · cases h

theorem get0 {s : SEnv} {vs : List SVal} (h : s.gets [] = some vs) : vs = [] := by
  cases h
  rfl

/-- An operation other than `from_halfturns_unchecked` appends code that computes its value. -/
theorem op_straight {st st1 : St} {c : Instr} (he : emitOp st c = some st1)
    (hop : c.op ≠ .fromHalfturnsUnchecked) :
    ∃ code, (∀ P rest t, Fin P st1 rest t → Fin P st (code ++ rest) t) ∧
      ∀ (s : SEnv) (e : Env) vs, Agree s e → s.gets c.ins = some vs →
        c.op.sem vs = .illTyped ∨ ∃ v e', c.op.sem vs = .val v ∧ runIns e code = some e' ∧
          ∀ n, e' (.wire n) = if n = c.out then some v.repr else e (.wire n) := by
  obtain ⟨op, ins, out⟩ := c
  unfold emitOp at he
  split at he <;> simp only [Option.some.injEq, reduceCtorEq] at he
  case h_2 h _ => exact absurd h hop
  case h_3 a ho hi =>
    simp only at ho hi
    subst ho hi he
    refine ⟨testCode st.tmp (inp a) ++ [(.tmp (st.tmp + 6), .tag true [inp a]),
      (.tmp (st.tmp + 7), .tag false []),
      (.tmp (st.tmp + 8), .select (.reg (.tmp (st.tmp + 5))) (.reg (.tmp (st.tmp + 6)))
        (.reg (.tmp (st.tmp + 7)))),
      (.wire out, .mov (.reg (.tmp (st.tmp + 8))))], ?_, ?_⟩
    · intro P rest t h
      rw [List.append_assoc]
      exact fin_test (fin_emit (fin_emit (fin_emit (fin_finish h))))
    · intro s e vs ha hg
      obtain ⟨v, rfl, hv⟩ := get1 hg
      cases v with
      | flt x =>
        right
        have hx := ha _ _ hv
        obtain ⟨e1, h1, h2, h3⟩ := run_test st.tmp hx
        rw [inp] at h1
        have hx1 : e1 (.wire a) = some (.f x) := (h2 a).trans hx
        cases hf : isFin x <;> rw [hf] at h3 <;>
          simp [Op.sem, hf, runIns_append, h1, runIns, LOp.eval, floats, Opnd.val, inp, Env.set, hx1, h3,
            SVal.repr, h2]
      | _ => exact .inl rfl
  all_goals
    rename_i ho hi
    simp only at ho hi
    subst ho hi he
  case h_4 a =>
    refine ⟨[(.wire out, .mov (inp a))], fun P rest t h => fin_finish h, ?_⟩
    intro s e vs ha hg
    obtain ⟨v, rfl, hv⟩ := get1 hg
    have hx := ha _ _ hv
    cases v <;> first
      | exact .inl rfl
      | (right; simp [Op.sem, runIns, LOp.eval, Opnd.val, inp, Env.set, hx, SVal.repr])
  case h_12 x =>
    refine ⟨[(.wire out, .mov (.lit (.f x)))], fun P rest t h => fin_finish h, ?_⟩
    intro s e vs ha hg
    cases get0 hg
    right
    simp [Op.sem, runIns, LOp.eval, Opnd.val, Env.set, SVal.repr]
  case h_13 x =>
    refine ⟨[(.wire out, .mov (.lit (.i x)))], fun P rest t h => fin_finish h, ?_⟩
    intro s e vs ha hg
    cases get0 hg
    right
    simp [Op.sem, runIns, LOp.eval, Opnd.val, Env.set, SVal.repr]
  case h_5 a =>
    refine ⟨[_, _], fun P rest t h => fin_emit (fin_finish h), ?_⟩
    intro s e vs ha hg
    obtain ⟨v, rfl, hv⟩ := get1 hg
    have hx := ha _ _ hv
    cases v with
    | bool b =>
      right
      cases b <;> simp [Op.sem, runIns, LOp.eval, Opnd.val, inp, St.emit, Env.set, hx, SVal.repr]
    | _ => exact .inl rfl
  case h_6 a | h_7 a =>
    refine ⟨[_, _], fun P rest t h => fin_emit (fin_finish h), ?_⟩
    intro s e vs ha hg
    obtain ⟨v, rfl, hv⟩ := get1 hg
    have hx := ha _ _ hv
    cases v <;> first
      | exact .inl rfl
      | (right; rename_i b; cases b <;>
          simp [Op.sem, runIns, LOp.eval, Opnd.val, inp, St.emit, Env.set, hx, SVal.repr])
  case h_1 a b =>
    refine ⟨[_, _], fun P rest t h => fin_emit (fin_finish h), ?_⟩
    intro s e vs ha hg
    obtain ⟨v, w, rfl, hv, hw⟩ := get2 hg
    have hx := ha _ _ hv
    have hy := ha _ _ hw
    cases v <;> cases w <;> first
      | exact .inl rfl
      | (right; simp [Op.sem, runIns, LOp.eval, Opnd.val, inp, St.emit, Env.set, hx, hy, SVal.repr])
  case h_8 a b | h_9 a b | h_10 a b | h_11 a b =>
    refine ⟨[_, _], fun P rest t h => fin_emit (fin_finish h), ?_⟩
    intro s e vs ha hg
    obtain ⟨v, w, rfl, hv, hw⟩ := get2 hg
    have hx := ha _ _ hv
    have hy := ha _ _ hw
    cases v <;> cases w <;> first
      | exact .inl rfl
      | (right; rename_i p q; cases p <;> cases q <;>
          simp [Op.sem, runIns, LOp.eval, Opnd.val, inp, St.emit, Env.set, hx, hy, SVal.repr])

theorem agree_set {s : SEnv} {e e' : Env} {n : Nat} {v : SVal} (h : Agree s e)
    (he : ∀ m, e' (.wire m) = if m = n then some v.repr else e (.wire m)) : Agree (s.set n v) e' := by
  intro m w hw
  rw [he]
  unfold SEnv.set at hw
  split at hw
  · rename_i hm
    cases hw
    rw [if_pos hm]
  · rename_i hm
    rw [if_neg hm]
    exact h m w hw

/-- What the run of the generated code ends with. -/
def Matches (o : Outcome) : SOut → Prop
  | .done s => ∃ e, o = .ret e ∧ Agree s e
  | .panic => o = .panic errSignal errMsg
  | .illTyped => True

theorem emit_correct {P : List Block} {cs : List Instr} {st st' : St} (ho : Open st)
    (he : emitAll st cs = some st') (hf : Fin P st' [] (some .ret)) :
    ∃ rest t, Fin P st rest t ∧ ∀ fuel s e, cs.length ≤ fuel → Agree s e →
      Matches (run P fuel rest t e) (exec s cs) := by
  induction cs generalizing st with
  | nil =>
    cases he
    refine ⟨[], some .ret, hf, ?_⟩
    intro fuel s e _ ha
    unfold run
    exact ⟨e, rfl, ha⟩
  | cons c cs ih =>
    unfold emitAll at he
    cases h1 : emitOp st c with
    | none => rw [h1] at he; cases he
    | some st1 =>
      rw [h1] at he
      obtain ⟨rest, t, hfin, hrun⟩ := ih (open_op ho h1) he
      by_cases hop : c.op = .fromHalfturnsUnchecked
      · obtain ⟨op, ins, out⟩ := c
        simp only at hop
        subst hop
        match ins, h1 with
        | [a], h1 =>
          simp only [emitOp, Option.some.injEq] at h1
          subst h1
          obtain ⟨f1, f2, f3⟩ := fin_branch hfin (open_test ho)
          refine ⟨_, _, fin_test f1, ?_⟩
          intro fuel s e hl ha
          unfold exec
          cases hg : s.gets [a] with
          | none => trivial
          | some vs =>
            obtain ⟨v, rfl, hv⟩ := get1 hg
            cases v with
            | flt x =>
              have hx := ha _ _ hv
              obtain ⟨e1, h1, h2, h3⟩ := run_test st.tmp hx
              rw [run_append h1]
              cases fuel with
              | zero => simp at hl
              | succ fuel =>
                unfold run
                simp only [runIns, test_opnd, Opnd.val, h3]
                cases hfx : isFin x
                · simp only [Bool.false_eq_true, if_false, f2, Op.sem, hfx]
                  unfold run
                  rfl
                · simp only [if_true, f3, Op.sem, hfx]
                  have hm : runIns e1 [(.wire out, .mov (inp a))] =
                      some (e1.set (.wire out) (.f x)) := by
                    simp [runIns, LOp.eval, Opnd.val, inp, h2, hx, SVal.repr]
                  have := run_append (P := P) (fuel := fuel) (b := rest) (t := t) hm
                  rw [List.singleton_append] at this
                  rw [this]
                  apply hrun
                  · simpa using hl
                  · apply agree_set ha
                    intro m
                    simp [Env.set, h2, SVal.repr]
            | _ => trivial
      · obtain ⟨code, c1, c2⟩ := op_straight h1 hop
        refine ⟨code ++ rest, t, c1 _ _ _ hfin, ?_⟩
        intro fuel s e hl ha
        unfold exec
        cases hg : s.gets c.ins with
        | none => trivial
        | some vs =>
          rcases c2 s e vs ha hg with h | ⟨v, e', h, hr, hw⟩
          · simp only [h]
            trivial
          · simp only [h]
            rw [run_append hr]
            apply hrun
            · simp only [List.length_cons] at hl
              omega
            · exact agree_set ha hw

theorem open_all {cs : List Instr} {st st' : St} (ho : Open st) (he : emitAll st cs = some st') :
    Open st' := by
  induction cs generalizing st with
  | nil => cases he; exact ho
  | cons c cs ih =>
    unfold emitAll at he
    cases h1 : emitOp st c with
    | none => rw [h1] at he; cases he
    | some st1 =>
      rw [h1] at he
      exact ih (open_op ho h1) he

theorem fin_ret {st : St} (h : Open st) : Fin (st.terminate .ret).blocks st [] (some .ret) := by
  obtain ⟨pre, h⟩ := h
  refine ⟨pre, h, ?_, ?_⟩
  · simp [St.terminate, h]
  · intro i hi _
    simp [St.terminate, Ne.symm hi]

/-- Code generated for a program does what the program is documented to do. -/
theorem compile_correct {cs : List Instr} {P : List Block} (h : compile cs = some P) {fuel : Nat}
    (hf : cs.length ≤ fuel) {s : SEnv} {e : Env} (ha : Agree s e) :
    Matches (call P fuel e) (exec s cs) := by
  unfold compile at h
  cases h1 : emitAll ⟨[⟨[], none⟩], 0, 0⟩ cs with
  | none => rw [h1] at h; cases h
  | some st' =>
    rw [h1] at h
    cases h
    have ho : Open ⟨[⟨[], none⟩], 0, 0⟩ := ⟨[], rfl⟩
    obtain ⟨rest, t, hfin, hrun⟩ := emit_correct ho h1 (fin_ret (open_all ho h1))
    obtain ⟨pre, p1, p2, -⟩ := hfin
    cases p1
    unfold call
    simp only at p2
    rw [p2]
    exact hrun fuel s e hf ha

end Tket.Rotation
