import Verif.Lemmas.ClExpr

/-
C62: classical expressions keep their meaning between programs and pytket circuits.
-/
namespace Verif.ClExpr

/-- What the decoder accepts: operator in the table, no parameters, one bit more than the operator
has operands; arguments that are variables and registers must be numbered in order. -/
theorem C62_decode_iff (e : ClExpr) (nbits nparams : Nat) (op : BoolOp) (ins outs : List Nat) :
    decode e nbits nparams = .ok op ins outs ↔
      (e.op = op.clop ∧ nparams = 0 ∧ nbits = op.inputs + 1 ∧ ins = List.range op.inputs ∧
        outs = [op.inputs] ∧
        (∀ (i : Nat) (r : Nat × List Nat), e.regPosn[i]? = some r → r.1 = i ∧ r.2.length = 1) ∧
        (∀ i j : Nat, e.args[i]? = some (Arg.bit j) ∨ e.args[i]? = some (Arg.reg j) → j = i)) := by
  have hr := regsOk_iff e.regPosn 0
  have ha := argsOk_iff e.args 0
  simp only [Nat.zero_add] at hr ha
  rw [← hr, ← ha, decode]
  have hop : ∀ o : ClOp, o.boolOp = some op ↔ o = op.clop := by
    intro o
    cases o <;> cases op <;> simp [ClOp.boolOp, BoolOp.clop]
  constructor
  · intro h
    split at h
    · rename_i hc
      rw [Bool.and_eq_true] at hc
      split at h
      · cases h
      · rename_i o ho
        split at h
        · cases h
        · split at h
          · cases h
          · split at h
            · cases h
            · cases h
              refine ⟨(hop _).1 ho, by omega, by omega, rfl, rfl, hc.1, hc.2⟩
    · cases h
  · rintro ⟨h1, h2, h3, h4, h5, h6, h7⟩
    rw [h6, h7, (hop _).2 h1, h2, h3, h4, h5]
    simp

/-- Which expressions mean what the decoder takes them for: all operands are plain bit variables, in
order and placed in order, and the result goes to the next bit.  Then the decoded node has the same
effect on the bits as the command. -/
theorem C62_decode_partial {e : ClExpr} {nbits nparams : Nat} {op : BoolOp} {ins outs : List Nat}
    (other : Nat → List Nat → Option Nat) (s : List Bool) (hs : s.length = nbits)
    (hd : decode e nbits nparams = .ok op ins outs)
    (hargs : e.args = (List.range op.inputs).map .bit)
    (hpos : ∀ i < op.inputs, e.bitPosn.lookup i = some i)
    (hout : e.outPosn = [op.inputs]) :
    ∃ s', e.run other s = some s' ∧ runNode op ins outs s = some s' := by
  obtain ⟨h1, -, h3, rfl, rfl, -, -⟩ := (C62_decode_iff ..).1 hd
  rw [ClExpr.run, h1, hargs, hout]
  subst hs
  cases op with
  | not =>
    have h0 : e.bitPosn.lookup 0 = some 0 := hpos 0 (by decide)
    match s, h3 with
    | [a, b], _ =>
      refine ⟨[a, !a], ?_, rfl⟩
      cases a <;>
        simp [BoolOp.inputs, List.range_succ, evalAll, Arg.eval, h0, BoolOp.clop, ClOp.apply,
          asBit, write]
  | eq | and | or | xor =>
    have h0 : e.bitPosn.lookup 0 = some 0 := hpos 0 (by decide)
    have h1 : e.bitPosn.lookup 1 = some 1 := hpos 1 (by decide)
    match s, h3 with
    | [a, b, c], _ =>
      cases a <;> cases b <;>
        simp [BoolOp.inputs, List.range_succ, evalAll, Arg.eval, h0, h1, BoolOp.clop, ClOp.apply,
          asBit, write, runNode, BoolOp.apply]

/-- The emitted command computes the operation, into the bit that is registered for the output (the
first bit), and touches no other bit. -/
theorem C62_encode {B : Type} (other : Nat → List Nat → Option Nat) (op : BoolOp) (ins : List B)
    (vs : List Bool) (hl : ins.length = op.inputs) (hv : vs.length = op.inputs) :
    ∃ b, op.apply vs = some b ∧ (encode op ins).expr.run other vs = some (vs.set 0 b) ∧
      encodeOut (encode op ins).bits = ins[0]? ∧ ins ≠ [] := by
  cases op with
  | not =>
    match vs, hv, ins, hl with
    | [a], _, [x], _ => exact ⟨!a, rfl, by cases a <;> rfl, rfl, by simp⟩
  | eq | and | or | xor =>
    match vs, hv, ins, hl with
    | [a, b], _, [x, y], _ =>
      refine ⟨_, rfl, ?_, rfl, by simp⟩
      cases a <;> cases b <;> rfl

/-- Finding: the emitted operation declares one bit more than the command has, and one variable is
placed outside the command. -/
theorem C62_declares_too_many {B : Type} (op : BoolOp) (ins : List B) (hl : ins.length = op.inputs) :
    (encode op ins).declared = (encode op ins).bits.length + 1 ∧
    (op.inputs, (encode op ins).bits.length) ∈ (encode op ins).expr.bitPosn := by
  constructor
  · show op.inputs + 1 = _
    rw [← hl]; rfl
  · show (op.inputs, ins.length) ∈ _
    rw [hl]
    exact List.mem_map.2 ⟨op.inputs, List.mem_range.2 (by omega), rfl⟩

/-- Finding: the decoder fails on every expression the encoder emits. -/
theorem C62_own_output_refused {B : Type} (op : BoolOp) (ins : List B)
    (hl : ins.length = op.inputs) :
    decode (encode op ins).expr (encode op ins).bits.length 0 = .error := by
  have : (encode op ins).bits.length = op.inputs := hl
  rw [this]
  cases op <;> rfl

/-- Finding: nested expressions are decoded as if their operands were the bits.  `b₀ ∧ ¬ b₁` becomes
`b₀ ∧ b₁`. -/
theorem C62_nested_wrong (other : Nat → List Nat → Option Nat) :
    ∃ e : ClExpr, decode e 3 0 = .ok .and [0, 1] [2] ∧
      e.run other [true, true, false] = some [true, true, false] ∧
      runNode .and [0, 1] [2] [true, true, false] = some [true, true, true] :=
  ⟨⟨[(0, 0), (1, 1)], [], [2], .bitAnd, [.bit 0, .node .bitNot [.bit 1]]⟩, rfl, rfl, rfl⟩

/-- Finding: so are constants.  The command `b₂ := b₀ ⊕ 1`, which also lists an unrelated bit
`b₁`, becomes `b₂ := b₀ ⊕ b₁`. -/
theorem C62_constant_wrong (other : Nat → List Nat → Option Nat) :
    ∃ e : ClExpr, decode e 3 0 = .ok .xor [0, 1] [2] ∧
      e.run other [true, false, false] = some [true, false, false] ∧
      runNode .xor [0, 1] [2] [true, false, false] = some [true, false, true] :=
  ⟨⟨[(0, 0)], [], [2], .bitXor, [.bit 0, .int 1]⟩, rfl, rfl, rfl⟩

/-- Finding: the places of the bits are ignored.  A command that negates its second bit into the
first one is decoded the other way round. -/
theorem C62_places_wrong (other : Nat → List Nat → Option Nat) :
    ∃ e : ClExpr, decode e 2 0 = .ok .not [0] [1] ∧
      e.run other [false, false] = some [true, false] ∧
      runNode .not [0] [1] [false, false] = some [false, true] :=
  ⟨⟨[(0, 1)], [], [0], .bitNot, [.bit 0]⟩, rfl, rfl, rfl⟩

/-- Finding: updates in place, `b₀ := b₀ ∧ b₁`, which mean something in pytket, end the decoding with
an error. -/
theorem C62_in_place_refused (other : Nat → List Nat → Option Nat) :
    ∃ e : ClExpr, decode e 2 0 = .error ∧ ∀ a b, e.run other [a, b] = some [a && b, b] :=
  ⟨⟨[(0, 0), (1, 1)], [], [0], .bitAnd, [.bit 0, .bit 1]⟩, rfl, by
    intro a b; cases a <;> cases b <;> rfl⟩

/-- Finding: `b₀ := b₀ ⊕ 1` panics the decoder. -/
theorem C62_one_bit_panics (other : Nat → List Nat → Option Nat) :
    ∃ e : ClExpr, decode e 1 0 = .panic ∧ ∀ a, e.run other [a] = some [!a] :=
  ⟨⟨[(0, 0)], [], [0], .bitXor, [.bit 0, .int 1]⟩, rfl, by intro a; cases a <;> rfl⟩

/-! ### The hypotheses are met -/

/-- An expression as the decoder expects it. -/
example : decode ⟨[(0, 0), (1, 1)], [], [2], .bitXor, [.bit 0, .bit 1]⟩ 3 0 = .ok .xor [0, 1] [2] :=
  rfl

example : (⟨[(0, 0), (1, 1)], [], [2], .bitXor, [.bit 0, .bit 1]⟩ : ClExpr).run (fun _ _ => none)
    [true, false, false] = some [true, false, true] := rfl

example : (encode .and ["a", "b"]).bits.length = 2 := rfl

end Verif.ClExpr
