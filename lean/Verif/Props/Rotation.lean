import Verif.Lemmas.Rotation
import Verif.Props.ParamsFloat

/-!
# Rotations and opaque booleans: C77
-/

namespace Tket.Rotation

open Tket.Dbl
open Verif.Params (pim pi_eq unit_le_pim pim_pos)

/-! ## Types -/

theorem gets_typed {Γ : Nat → Option Ty} {s : SEnv} (hs : Typed Γ s) {ns : List Nat} {ts : List Ty}
    (h : ns.map Γ = ts.map some) : ∃ vs, s.gets ns = some vs ∧ vs.map SVal.ty = ts := by
  induction ns generalizing ts with
  | nil =>
    cases ts with
    | nil => exact ⟨[], rfl, rfl⟩
    | cons => cases h
  | cons n ns ih =>
    cases ts with
    | nil => cases h
    | cons t ts =>
      simp only [List.map_cons, List.cons.injEq] at h
      obtain ⟨vs, h1, h2⟩ := ih h.2
      have := hs n
      rw [h.1] at this
      cases hv : s n with
      | none => rw [hv] at this; cases this
      | some v =>
        rw [hv] at this
        cases this
        exact ⟨v :: vs, by simp [SEnv.gets, hv, h1], by simp [h2]⟩

/-- Values of the right types have a result of the right type. -/
theorem sem_typed {op : Op} {vs : List SVal} (h : vs.map SVal.ty = op.sig.1) :
    (∃ v, op.sem vs = .val v ∧ v.ty = op.sig.2) ∨
      ∃ x, op = .fromHalfturnsUnchecked ∧ vs = [.flt x] ∧ isFin x = false ∧ op.sem vs = .panic := by
  match vs with
  | [] => cases op <;> first | (cases h; done) | exact .inl ⟨_, rfl, rfl⟩
  | [v] =>
    cases op <;> cases v <;> first
      | (cases h; done)
      | exact .inl ⟨_, rfl, rfl⟩
      | skip
    rename_i x
    cases hx : isFin x
    · exact .inr ⟨x, rfl, rfl, hx, by simp [Op.sem, hx]⟩
    · exact .inl ⟨.rot x, by simp [Op.sem, hx], rfl⟩
  | [v, w] =>
    cases op <;> cases v <;> cases w <;> first
      | (cases h; done)
      | exact .inl ⟨_, rfl, rfl⟩
  | _ :: _ :: _ :: _ => cases op <;> simp [Op.sig] at h

theorem typed_set {Γ : Nat → Option Ty} {s : SEnv} (hs : Typed Γ s) (n : Nat) (v : SVal) :
    Typed (fun m => if m = n then some v.ty else Γ m) (s.set n v) := by
  intro m
  unfold SEnv.set
  simp only
  split
  · rfl
  · exact hs m

/-- A typed program ends with values of the right types or panics. -/
theorem exec_typed {Γ Γ' : Nat → Option Ty} {s : SEnv} {cs : List Instr} (hs : Typed Γ s)
    (h : check Γ cs = some Γ') :
    (∃ s', exec s cs = .done s' ∧ Typed Γ' s') ∨ exec s cs = .panic := by
  induction cs generalizing Γ s with
  | nil =>
    cases h
    exact .inl ⟨s, rfl, hs⟩
  | cons c cs ih =>
    unfold check at h
    split at h
    · rename_i hc
      obtain ⟨vs, h1, h2⟩ := gets_typed hs hc
      unfold exec
      simp only [h1]
      rcases sem_typed h2 with ⟨v, h3, h4⟩ | ⟨x, -, -, -, h3⟩
      · simp only [h3]
        refine ih ?_ h
        rw [← h4]
        exact typed_set hs _ _
      · simp only [h3]
        exact .inr trivial
    · cases h

theorem emit_some (st : St) {c : Instr} (h : c.ins.length = c.op.sig.1.length) :
    ∃ st', emitOp st c = some st' := by
  obtain ⟨op, ins, out⟩ := c
  simp only at h
  match ins with
  | [] => cases op <;> first | (cases h; done) | exact ⟨_, rfl⟩
  | [_] => cases op <;> first | (cases h; done) | exact ⟨_, rfl⟩
  | [_, _] => cases op <;> first | (cases h; done) | exact ⟨_, rfl⟩
  | _ :: _ :: _ :: _ => cases op <;> simp [Op.sig] at h

theorem emitAll_some {Γ Γ' : Nat → Option Ty} {cs : List Instr} (h : check Γ cs = some Γ') (st : St) :
    ∃ st', emitAll st cs = some st' := by
  induction cs generalizing Γ st with
  | nil => exact ⟨st, rfl⟩
  | cons c cs ih =>
    unfold check at h
    split at h
    · rename_i hc
      have hl : c.ins.length = c.op.sig.1.length := by
        have := congrArg List.length hc
        simpa using this
      obtain ⟨st1, h1⟩ := emit_some st hl
      obtain ⟨st2, h2⟩ := ih h st1
      exact ⟨st2, by simp [emitAll, h1, h2]⟩
    · cases h

/-! ## The generated code -/

/-- **C77**: for every well-typed program code is generated, and for all inputs its run ends, either
with the documented values of all wires, of the right types, or with the error of
`from_halfturns_unchecked`; which of the two is what the documentation says. -/
theorem C77_code {Γ Γ' : Nat → Option Ty} {cs : List Instr} (h : check Γ cs = some Γ') :
    ∃ P, compile cs = some P ∧ ∀ s e fuel, Typed Γ s → Agree s e → cs.length ≤ fuel →
      (∃ s' e', exec s cs = .done s' ∧ Typed Γ' s' ∧ call P fuel e = .ret e' ∧ Agree s' e') ∨
      (exec s cs = .panic ∧
        call P fuel e = .panic 1 "tket.rotation.from_halfturns_unchecked failed") := by
  obtain ⟨st, h1⟩ := emitAll_some h ⟨[⟨[], none⟩], 0, 0⟩
  have h2 : compile cs = some (st.terminate .ret).blocks := by simp [compile, h1]
  refine ⟨_, h2, ?_⟩
  intro s e fuel hs ha hf
  have hm := compile_correct h2 hf ha
  rcases exec_typed hs h with ⟨s', h3, h4⟩ | h3
  · rw [h3] at hm
    obtain ⟨e', h5, h6⟩ := hm
    exact .inl ⟨s', e', h3, h4, h5, h6⟩
  · rw [h3] at hm
    exact .inr ⟨h3, hm⟩

theorem exec_append (s : SEnv) (a b : List Instr) : exec s (a ++ b) =
    match exec s a with
    | .done s' => exec s' b
    | .panic => .panic
    | .illTyped => .illTyped := by
  induction a generalizing s with
  | nil => rfl
  | cons c cs ih =>
    rw [List.cons_append]
    simp only [exec]
    cases s.gets c.ins with
    | none => rfl
    | some vs =>
      simp only
      cases c.op.sem vs with
      | val v => exact ih _
      | panic => rfl
      | illTyped => rfl

/-- **C77**: the generated code panics exactly if some `from_halfturns_unchecked` is reached with a
number that is not finite. -/
theorem C77_panics {Γ Γ' : Nat → Option Ty} {cs : List Instr} (h : check Γ cs = some Γ')
    {P : List Block} (hP : compile cs = some P) {s : SEnv} {e : Env} {fuel : Nat} (hs : Typed Γ s)
    (ha : Agree s e) (hf : cs.length ≤ fuel) :
    (∃ sig msg, call P fuel e = .panic sig msg) ↔
      ∃ pre a out post s1 x, cs = pre ++ ⟨.fromHalfturnsUnchecked, [a], out⟩ :: post ∧
        exec s pre = .done s1 ∧ s1 a = some (.flt x) ∧ isFin x = false := by
  have hcall : (∃ sig msg, call P fuel e = .panic sig msg) ↔ exec s cs = .panic := by
    obtain ⟨P', h1, h2⟩ := C77_code h
    cases h1.symm.trans hP
    rcases h2 s e fuel hs ha hf with ⟨s', e', h3, _, h4, _⟩ | ⟨h3, h4⟩
    · rw [h3, h4]
      simp
    · rw [h3, h4]
      simp
  rw [hcall]
  constructor
  · intro hx
    clear hcall hP ha hf
    induction cs generalizing Γ s with
    | nil => cases hx
    | cons c cs ih =>
      unfold check at h
      split at h
      · rename_i hc
        obtain ⟨vs, h1, h2⟩ := gets_typed hs hc
        unfold exec at hx
        simp only [h1] at hx
        rcases sem_typed h2 with ⟨v, h3, h4⟩ | ⟨x, h3, h4, h5, -⟩
        · simp only [h3] at hx
          rw [← h4] at h
          obtain ⟨pre, a, out, post, s1, x, e1, e2, e3⟩ := ih h (typed_set hs _ _) hx
          refine ⟨c :: pre, a, out, post, s1, x, by rw [e1]; rfl, ?_, e3⟩
          simp [exec, h1, h3, e2]
        · obtain ⟨op, ins, out⟩ := c
          simp only at h3
          subst h3 h4
          simp only [Op.sig, List.map_cons, List.map_nil] at hc
          match ins with
          | [] => simp at hc
          | [a] =>
            obtain ⟨v, e1, e2⟩ := get1 h1
            cases e1
            exact ⟨[], a, out, cs, s, x, rfl, rfl, e2, h5⟩
          | _ :: _ :: _ => simp at hc
      · cases h
  · rintro ⟨pre, a, out, post, s1, x, rfl, h1, h2, h3⟩
    rw [exec_append, h1]
    simp [exec, SEnv.gets, h2, Op.sem, h3]

/-! ## Finite rotations -/

/-- All rotations are finite. -/
def AllFinite (s : SEnv) : Prop := ∀ n v, s n = some v → v.ok

/-- **C77** (part): a program without `radd` whose constants are finite makes only finite rotations.
What is missing is `radd`, see `C77_radd_infinite`. -/
theorem C77_finite_partial {cs : List Instr} {s s' : SEnv} (hc : ∀ c ∈ cs, c.op ≠ .radd)
    (hk : ∀ c ∈ cs, ∀ x, c.op = .constRotation x → ∃ y, constNew y = some x) (hs : AllFinite s)
    (h : exec s cs = .done s') : AllFinite s' := by
  induction cs generalizing s with
  | nil => cases h; exact hs
  | cons c cs ih =>
    unfold exec at h
    split at h
    · cases h
    · rename_i vs hg
      split at h
      · rename_i v hv
        refine ih (fun c hm => hc c (List.mem_cons_of_mem _ hm))
          (fun c hm => hk c (List.mem_cons_of_mem _ hm)) ?_ h
        have hok : v.ok := by
          have h1 := hc c (List.mem_cons_self)
          have h2 := hk c (List.mem_cons_self)
          unfold Op.sem at hv
          split at hv
          case h_4 => exact absurd (by assumption) h1
          case h_1 x _ =>
            cases hv
            cases hx : isFin x <;> simp [SVal.ok, hx]
          case h_2 x _ =>
            cases hx : isFin x
            · simp [hx] at hv
            · simp only [hx, if_true] at hv
              cases hv
              exact hx
          case h_12 x ho =>
            cases hv
            obtain ⟨y, hy⟩ := h2 _ ho
            unfold constNew at hy
            cases y <;> simp [isNan, isInf] at hy
            subst hy
            rfl
          all_goals first
            | (cases hv; done)
            | (cases hv; trivial)
        intro n w hw
        unfold SEnv.set at hw
        split at hw
        · cases hw; exact hok
        · exact hs n w hw
      · cases h
      · cases h

/-- The largest finite number. -/
def maxFin : F64 := ofBits 0x7fefffffffffffff

/-- The finding's program: a sum of two rotations is read and made a rotation again. -/
def raddProg : List Instr :=
  [⟨.radd, [0, 1], 2⟩, ⟨.toHalfturns, [2], 3⟩, ⟨.fromHalfturnsUnchecked, [3], 4⟩]

def raddEnv : SEnv := fun n => if n < 2 then some (.rot maxFin) else none

theorem radd_max : add maxFin maxFin = .inf false := by decide +kernel

theorem max_fin : isFin maxFin = true := by decide +kernel

/-- **C77** (finding): the sum of two finite rotations can be infinite, and then
`from_halfturns_unchecked` of the `to_halfturns` of a rotation panics. -/
theorem C77_radd_infinite : AllFinite raddEnv ∧
    (∃ s', exec raddEnv (raddProg.take 1) = .done s' ∧ s' 2 = some (.rot (.inf false))) ∧
    exec raddEnv raddProg = .panic := by
  refine ⟨?_, ?_, ?_⟩
  · intro n v h
    unfold raddEnv at h
    split at h
    · cases h
      exact max_fin
    · cases h
  · refine ⟨raddEnv.set 2 (.rot (add maxFin maxFin)), rfl, ?_⟩
    rw [radd_max]
    rfl
  · have : exec raddEnv raddProg =
        (if isFin (add maxFin maxFin) then exec ((((raddEnv.set 2 (.rot (add maxFin maxFin)))).set 3
          (.flt (add maxFin maxFin))).set 4 (.rot (add maxFin maxFin))) [] else .panic) := by
      cases hx : isFin (add maxFin maxFin) <;>
        simp [raddProg, exec, SEnv.gets, raddEnv, SEnv.set, Op.sem, hx]
    rw [this, radd_max]
    rfl

/-! ## Constants -/

theorem constNew_eq (x : F64) : constNew x = if isFin x then some x else none := by
  cases x <;> rfl

theorem isFin_mk (s : Bool) (n d : Nat) : isFin (mk s n d) = decide (rnd n d < top) := by
  unfold mk
  by_cases h : rnd n d < top
  · simp [h, isFin]
  · simp [h, isFin]

/-- **C77**: `ConstRotation::new` and `from_radians` fail exactly for NaN and infinities. -/
theorem C77_constants (x : F64) (hx : Valid x) :
    (constNew x = none ↔ isFin x = false) ∧ (∀ y, constNew x = some y → y = x) ∧
      (fromRadians x = none ↔ isFin x = false) := by
  refine ⟨?_, ?_, ?_⟩
  · rw [constNew_eq]
    cases isFin x <;> simp
  · intro y
    rw [constNew_eq]
    cases isFin x <;> simp [eq_comm]
  · unfold fromRadians
    rw [constNew_eq, pi_eq]
    cases x with
    | nan => simp [div, isFin]
    | inf s => simp [div, isFin]
    | fin s m =>
      obtain ⟨h1, h2⟩ := hx
      have h3 : rnd (m * unit) pim < top := by
        refine Nat.lt_of_le_of_lt (rnd_mono (n' := m) (d' := 1) pim_pos (by decide) ?_) ?_
        · rw [Nat.mul_one]
          exact Nat.mul_le_mul_left _ unit_le_pim
        · have := rnd_exact (k := m) (d := 1) (by decide) h2
          rw [Nat.mul_one] at this
          rw [this]
          exact h1
      have h0 : pim ≠ 0 := Nat.pos_iff_ne_zero.1 pim_pos
      have h4 : div (.fin s m) (.fin false pim) = mk (s != false) (m * unit) pim := by
        show (if pim = 0 then (if m = 0 then F64.nan else .inf (s != false))
          else mk (s != false) (m * unit) pim) = _
        rw [if_neg h0]
      rw [h4, isFin_mk, decide_eq_true h3]
      simp [isFin]

example : Valid (ofBits 0x3ff6000000000000) := by
  have : ofBits 0x3ff6000000000000 = .fin false (11 * 2 ^ 1071) := by decide +kernel
  rw [this]
  refine ⟨?_, dvd_of_factor (by decide)⟩
  decide +kernel

/-- **C77** (finding): a rotation made from its own value in radians can be another one (1.375
half-turns), and the value in radians of a finite rotation can be infinite. -/
theorem C77_radians :
    (∃ y, fromRadians (toRadians (ofBits 0x3ff6000000000000)) = some y ∧
      oeq y (ofBits 0x3ff6000000000000) = false) ∧
    constNew maxFin = some maxFin ∧ toRadians maxFin = .inf false ∧
      fromRadians (toRadians maxFin) = none := by
  refine ⟨?_, ?_, ?_, ?_⟩
  · refine ⟨div (toRadians (ofBits 0x3ff6000000000000)) Dbl.pi, ?_, ?_⟩ <;> decide +kernel
  all_goals decide +kernel

/-! ## Literals -/

/-- Half a unit in the last place below the overflow threshold. -/
def limit : Nat := (2 ^ 54 - 1) * 2 ^ 2044

theorem rnd_limit : top ≤ rnd limit 1 := by decide +kernel

theorem drop_limit : drop (limit - 1) = 2045 := by decide +kernel

theorem pow_aux {s : Nat} (hs : s ≤ 2045) {r : Nat} (hr : r ≤ 2 ^ 53) (h : top ≤ r * 2 ^ s) :
    s = 2045 ∧ r = 2 ^ 53 := by
  have ht : top = 2 ^ 53 * 2 ^ 2045 := by decide +kernel
  rw [ht] at h
  by_cases e : s = 2045
  · subst e
    refine ⟨rfl, Nat.le_antisymm hr (Nat.le_of_mul_le_mul_right h (Nat.pow_pos (by decide)))⟩
  · exfalso
    have : 2 ^ s < 2 ^ 2045 := Nat.pow_lt_pow_right (by decide) (by omega)
    have h1 : r * 2 ^ s ≤ 2 ^ 53 * 2 ^ s := Nat.mul_le_mul_right _ hr
    have h2 : 2 ^ 53 * 2 ^ s < 2 ^ 53 * 2 ^ 2045 := Nat.mul_lt_mul_of_pos_left this (by decide)
    exact Nat.lt_irrefl _ (Nat.lt_of_le_of_lt (Nat.le_trans h h1) h2)

/-- The numbers that are rounded to an infinity. -/
theorem top_le_rnd {n d : Nat} (hd : 0 < d) : top ≤ rnd n d ↔ limit * d ≤ n := by
  constructor
  · intro h
    refine Nat.le_of_not_lt fun hn => ?_
    have hq : n / d ≤ limit - 1 := by
      have := (Nat.div_lt_iff_lt_mul hd).2 hn
      exact Nat.le_sub_one_of_lt this
    have hdrop := drop_mono hq
    rw [drop_limit] at hdrop
    obtain ⟨hs, hr⟩ := pow_aux hdrop (factor_le n d) h
    have h1 := roundDiv_le (n := n) (d := d * 2 ^ drop (n / d))
      (Nat.mul_pos hd (Nat.pow_pos (by decide)))
    rw [hr, hs] at h1
    have h2 : (2 : Nat) ^ 2045 = 2 * 2 ^ 2044 := by decide +kernel
    rw [h2] at h1
    unfold limit at hn
    generalize (2 : Nat) ^ 2044 = u at h1 hn
    have h3 : 2 * (2 ^ 53 * (d * (2 * u))) = 2 ^ 55 * (u * d) := by ring
    have h4 : (2 ^ 54 - 1) * u * d = (2 ^ 54 - 1) * (u * d) := by ring
    have h5 : d * (2 * u) = 2 * (u * d) := by ring
    rw [h3, h5] at h1
    rw [h4] at hn
    omega
  · intro h
    refine Nat.le_trans rnd_limit (rnd_mono (by decide) hd ?_)
    rw [Nat.mul_one]
    exact h

/-- The numbers from here on are rounded to infinity. -/
@[irreducible] def bound : Nat := 2 ^ 1024 - 2 ^ 970

/-- The value of a decimal literal is at least `limit` (in multiples of `2 ^ -1074`): `n * 10 ^ e` or
`n / 10 ^ e` is at least `2 ^ 1024 - 2 ^ 970`. -/
def TooLarge (n : Nat) (left : Bool) (e : Nat) : Prop :=
  if left then bound * 10 ^ e ≤ n else bound ≤ n * 10 ^ e

theorem limit_eq : limit = bound * unit := by decide +kernel

/-- **C77** (finding): loading a parameter given as a decimal literal panics exactly if its absolute
value is at least `2 ^ 1024 - 2 ^ 970`. -/
theorem C77_literal (s : Bool) (n : Nat) (left : Bool) (e : Nat) :
    loadConst (readDec s n left e) = none ↔ TooLarge n left e := by
  unfold loadConst
  rw [constNew_eq]
  have key : ∀ (k d : Nat), 0 < d →
      ((if isFin (mk s (k * unit) d) then some (mk s (k * unit) d) else none) = none ↔
        bound * d ≤ k) := by
    intro k d hd
    rw [isFin_mk]
    have h1 := top_le_rnd (n := k * unit) hd
    rw [limit_eq] at h1
    have h2 : bound * unit * d = bound * d * unit := by ring
    rw [h2, Nat.mul_le_mul_right_iff unit_pos] at h1
    rw [← h1]
    by_cases hr : rnd (k * unit) d < top
    · simp only [hr, decide_true, if_true, reduceCtorEq, false_iff]
      exact Nat.not_le_of_lt hr
    · simp only [hr, decide_false, Bool.false_eq_true, if_false, true_iff]
      exact Nat.le_of_not_lt hr
  unfold readDec TooLarge
  cases left with
  | true =>
    simp only [if_true]
    exact key n (10 ^ e) (Nat.pow_pos (by decide))
  | false =>
    simp only [Bool.false_eq_true, if_false]
    have := key (n * 10 ^ e) 1 (by decide)
    rw [Nat.mul_one] at this
    exact this

/-- The literals `1e309` and `1e308`. -/
example : TooLarge 1 false 309 ∧ ¬ TooLarge 1 false 308 ∧ ¬ TooLarge 3 true 1 := by
  unfold TooLarge
  refine ⟨?_, ?_, ?_⟩ <;> decide +kernel

/-! ## Examples -/

/-- A program that uses most operations. -/
def prog : List Instr :=
  [⟨.constRotation (ofNat 1), [], 1⟩, ⟨.toHalfturns, [1], 2⟩, ⟨.fromHalfturns, [0], 3⟩,
   ⟨.constBool true, [], 4⟩, ⟨.read, [4], 5⟩, ⟨.makeOpaque, [5], 6⟩, ⟨.not, [6], 7⟩,
   ⟨.xor, [6, 7], 8⟩, ⟨.fromHalfturnsUnchecked, [0], 9⟩, ⟨.radd, [9, 1], 10⟩,
   ⟨.and, [8, 4], 11⟩]

def tys : Nat → Option Ty := fun n => if n = 0 then some .flt else none

/-- The program is typed. -/
example : ∃ Γ', check tys prog = some Γ' ∧ Γ' 3 = some .opt ∧ Γ' 10 = some .rot ∧
    Γ' 11 = some .bool := ⟨_, rfl, rfl, rfl, rfl⟩

/-- Inputs that meet the hypotheses of `C77_code`. -/
example : Typed tys (fun n => if n = 0 then some (.flt .nan) else none) ∧
    Agree (fun n => if n = 0 then some (.flt .nan) else none)
      (fun r => if r = .wire 0 then some (.f .nan) else none) ∧
    exec (fun n => if n = 0 then some (.flt .nan) else none) prog = .panic := by
  refine ⟨?_, ?_, rfl⟩
  · intro n
    unfold tys
    by_cases h : n = 0 <;> simp [h, SVal.ty]
  · intro n v h
    by_cases hn : n = 0
    · subst hn
      cases h
      rfl
    · simp [hn] at h

/-- Without `radd`, a run that makes finite rotations. -/
example : AllFinite (fun n => if n = 0 then some (.flt (.inf true)) else none) := by
  intro n v h
  by_cases hn : n = 0
  · subst hn
    cases h
    trivial
  · simp [hn] at h

end Tket.Rotation
