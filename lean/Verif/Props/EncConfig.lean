import Verif.Lemmas.EncConfig

/-!
# C86: registered encoders, decoders and constants
-/

namespace Tket.EncConfig

/-- C86: for an operation, the emitters that declare its extension are called in the order of registration, then
those for all operations. No index is out of range. -/
theorem C86_emitters_for_operation {σ : Type} (es : List (Emitter σ)) (h : ∀ e ∈ es, e.Proper) (ext : Nat) :
    (build es).forExt ext = some (es.filter (·.declares ext) ++ es.filter Emitter.forAll) := by
  rw [Config.forExt, config_get, build_emitters, build_byExt es h, build_generic]
  exact getL_append _ _ _ _ _ (getL_positions _ es) (getL_positions _ es)

/-- C86: for a constant, each emitter that declares one of its extensions or is for all operations is called once, in
the order of registration. -/
theorem C86_emitters_for_constant {σ : Type} (es : List (Emitter σ)) (exts : List Nat) :
    (build es).forExts exts = some (es.filter fun e => e.forAll || exts.any e.declares) := by
  have : toSet (exts.flatMap (build es).byExt ++ (build es).generic) =
      positions (fun e => e.forAll || exts.any e.declares) es := by
    obtain ⟨h1, h2⟩ := toSet_spec (exts.flatMap (build es).byExt ++ (build es).generic)
    refine eq_of_sorted _ _ h1 (positions_sorted _ _) fun i => ?_
    rw [h2, List.mem_append, List.mem_flatMap, build_generic, mem_positions, mem_positions]
    constructor
    · rintro (⟨x, hx, hi⟩ | ⟨e, he, hp⟩)
      · rw [build_mem_byExt, mem_positions] at hi
        obtain ⟨e, he, hp⟩ := hi
        exact ⟨e, he, by rw [Bool.or_eq_true, List.any_eq_true]; exact .inr ⟨x, hx, hp⟩⟩
      · exact ⟨e, he, by rw [hp]; rfl⟩
    · rintro ⟨e, he, hp⟩
      rw [Bool.or_eq_true, List.any_eq_true] at hp
      rcases hp with hp | ⟨x, hx, hp⟩
      · exact .inr ⟨e, he, hp⟩
      · exact .inl ⟨x, hx, by rw [build_mem_byExt, mem_positions]; exact ⟨e, he, hp⟩⟩
  rw [Config.forExts, config_get, build_emitters, this]
  exact getL_positions _ es

/-- The first emitter that does not answer "unsupported". -/
def firstAnswer {σ : Type} (es : List (Emitter σ)) (op : Nat) (s : σ) : Option (Emitter σ) :=
  es.find? fun e =>
    match e.op op s with
    | .ok (false, _) => false
    | _ => true

theorem opLoop_clean {σ : Type} (es : List (Emitter σ)) (h : ∀ e ∈ es, e.Clean) (op : Nat) (s : σ) :
    opLoop op es s =
      match firstAnswer es op s with
      | some e => e.op op s
      | none => .ok (false, s) := by
  induction es with
  | nil => rfl
  | cons e es ih =>
    rw [List.forall_mem_cons] at h
    simp only [opLoop, firstAnswer, List.find?_cons]
    cases he : e.op op s with
    | error x => simp [he]
    | ok r =>
      obtain ⟨b, s'⟩ := r
      cases b with
      | true => simp [he]
      | false =>
        have := h.1 op s s' he
        subst this
        exact ih h.2

/-- C86: an operation is encoded by the first emitter that supports it, as if it were the only one; if there is none
then the context is unchanged. This needs that emitters leave the context alone for what they do not support. -/
theorem C86_operation {σ : Type} (es : List (Emitter σ)) (h : ∀ e ∈ es, e.Proper) (hc : ∀ e ∈ es, e.Clean)
    (ext op : Nat) (s : σ) :
    (build es).op ext op s =
      match firstAnswer (es.filter (·.declares ext) ++ es.filter Emitter.forAll) op s with
      | some e => e.op op s
      | none => .ok (false, s) := by
  rw [Config.op, C86_emitters_for_operation es h]
  refine opLoop_clean _ (fun e he => hc e ?_) op s
  rcases List.mem_append.1 he with he | he <;> exact List.mem_of_mem_filter he

/-- The first decoder that does not answer "unsupported". -/
def firstDecoder {σ : Type} (ds : List (Decoder σ)) (op : Nat) (s : σ) : Option (Decoder σ) :=
  ds.find? fun d =>
    match d.op op s with
    | .ok (false, _) => false
    | _ => true

/-- C86: a command is decoded by the first decoder, in the order of registration, that lists its type and supports
it. -/
theorem C86_decoder {σ : Type} (ds : List (Decoder σ)) (h : ∀ d ∈ ds, d.types.Nodup)
    (hc : ∀ d ∈ ds, ∀ op s s', d.op op s = .ok (false, s') → s' = s) (type op : Nat) (s : σ) :
    (dbuild ds).op type op s =
      match firstDecoder (ds.filter fun d => d.types.contains type) op s with
      | some d => d.op op s
      | none => .ok (false, s) := by
  obtain ⟨h1, h2⟩ := dbuild_spec ds
  rw [DConfig.op, dconfig_get, h1, h2 h, getL_positions]
  have hc : ∀ d ∈ ds.filter (fun d => d.types.contains type), ∀ op s s', d.op op s = .ok (false, s') → s' = s :=
    fun d hd => hc d (List.mem_of_mem_filter hd)
  revert hc
  generalize ds.filter (fun d => d.types.contains type) = l
  intro hc
  show decLoop op l false s = _
  induction l with
  | nil => rfl
  | cons d l ih =>
    rw [List.forall_mem_cons] at hc
    simp only [decLoop, firstDecoder, List.find?_cons]
    cases hd : d.op op s with
    | error x => simp [hd]
    | ok r =>
      obtain ⟨b, s'⟩ := r
      cases b with
      | true => simp [hd]
      | false =>
        have := hc.1 op s s' hd
        subst this
        exact ih hc.2

/-- C86 fails of the code: emitters for all operations come last for operations but in their turn for constants. -/
theorem C86_order_differs {σ : Type} (a b : Emitter σ) (ha : a.exts = none) (hb : b.exts = some [0]) :
    (build [a, b]).forExt 0 = some [b, a] ∧ (build [a, b]).forExts [0] = some [a, b] := by
  have h : ∀ e ∈ [a, b], e.Proper := by
    intro e he es hes
    simp only [List.mem_cons, List.not_mem_nil, or_false] at he
    rcases he with rfl | rfl
    · rw [ha] at hes; cases hes
    · rw [hb] at hes; cases hes; simp
  rw [C86_emitters_for_operation _ h, C86_emitters_for_constant]
  simp [List.filter_cons, Emitter.declares, Emitter.forAll, ha, hb]

/-- C86 fails of the code: an emitter that lists an extension twice is called twice. -/
theorem C86_called_twice {σ : Type} (a : Emitter σ) (ha : a.exts = some [0, 0]) :
    (build [a]).forExt 0 = some [a, a] := by
  simp [build, Config.add, Config.empty, ha, Config.forExt, push, Config.get]

/-- C86: the default emitters, for a constant without tuples and booleans of the core type: a bit that holds the value
or a parameter with the number, without touching the bits in use. -/
theorem C86_constants_partial (op : Nat → Nat → State → Except Err (Bool × State)) (v : Value) (hv : v.Plain)
    (s : State) (used : List Nat) (h : s.Ok used) (hr : s.Reset) :
    ∃ r s' bs es, constToPytket (defaultConfig op) v s = .ok (some r, s') ∧ Holds s' r bs es ∧
      bs.Perm v.bools ∧ es.Perm v.exprs ∧
      (v.Atom ∨ (∃ vs, v = .tuple vs ∧ ∀ w ∈ vs, w.Atom) → bs = v.bools ∧ es = v.exprs) ∧
      r.bits.Nodup ∧ (∀ b ∈ r.bits, b ∉ used) ∧ ∀ b ∈ used, s'.val b = s.val b := by
  have hq : AllPlain [v] := by simp [AllPlain, hv]
  have hf : sizes [v] ≤ v.size := by simp [sizes]
  obtain ⟨p1, p2, p3⟩ := order_perm v.size [v] hq hf
  obtain ⟨a1, a2, a3, a4, a5, a6, a7⟩ := encodeAll_spec (order v.size [v]) p3 ⟨[], []⟩ s used [] [] h hr
    ⟨rfl, rfl⟩ (by simp) (by simp)
  refine ⟨_, _, _, _, loop_plain op v.size [v] hq hf _ s, a1, ?_, ?_, ?_, a4, a5, a6⟩
  · simpa [allBools] using p1
  · simpa [allExprs] using p2
  · rintro (ha | ⟨vs, rfl, ha⟩)
    · obtain ⟨o1, o2⟩ := order_atoms v.size [v] hq (by simpa using ha) hf
      rw [o1, o2]
      simp [allBools, allExprs]
    · have hvs : AllPlain vs := by simpa [Value.Plain] using hv
      obtain ⟨o1, o2⟩ := order_atoms (sizes vs) vs hvs ha (Nat.le_refl _)
      have e : (Value.tuple vs).size = sizes vs + 1 := by simp only [Value.size]; omega
      rw [e]
      simp only [order, List.nil_append, Value.bools, Value.exprs]
      exact ⟨o1, o2⟩

theorem default_other (op : Nat → Nat → State → Except Err (Bool × State)) (n : Nat) (es : List Nat) (s : State) :
    (defaultConfig op).leaf (.other n es) s = .ok (none, s) := by
  have e : defaultConfig op = build [⟨some [2], op 0, noConst⟩, ⟨some [3], op 1, boolConst⟩,
    ⟨some [5, 0], op 2, floatConst⟩, ⟨some [1], op 3, rotationConst⟩, ⟨some [6], op 4, noConst⟩,
    ⟨some [7], op 5, noConst⟩] := rfl
  rw [e, Config.leaf, C86_emitters_for_constant]
  have key : ∀ l : List (Emitter State), (∀ x ∈ l, ∀ s, x.const (.other n es) s = .ok (none, s)) →
      constLoop (.other n es) l s = .ok (none, s) := by
    intro l hl
    induction l with
    | nil => rfl
    | cons x l ih =>
      rw [List.forall_mem_cons] at hl
      simp only [constLoop, hl.1]
      exact ih hl.2
  refine key _ fun x hx => ?_
  have hx := List.mem_of_mem_filter hx
  simp only [List.mem_cons, List.not_mem_nil, or_false] at hx
  rcases hx with rfl | rfl | rfl | rfl | rfl | rfl <;> intro s <;> rfl

theorem anyUnknown_append (a b : List Value) : AnyUnknown (a ++ b) ↔ AnyUnknown a ∨ AnyUnknown b := by
  induction a with
  | nil => simp [AnyUnknown]
  | cons v a ih => simp [AnyUnknown, ih, or_assoc]

theorem allNoCoreBool_append (a b : List Value) : AllNoCoreBool (a ++ b) ↔ AllNoCoreBool a ∧ AllNoCoreBool b := by
  induction a with
  | nil => simp [AllNoCoreBool]
  | cons v a ih => simp [AllNoCoreBool, ih, and_assoc]

theorem loop_unknown (op : Nat → Nat → State → Except Err (Bool × State)) (fuel : Nat) (q : List Value)
    (hb : AllNoCoreBool q) (hf : sizes q ≤ fuel) (acc : Vals) (s : State) :
    (AnyUnknown q → ∃ s', loop (defaultConfig op) fuel q acc s = .ok (none, s')) ∧
      (¬ AnyUnknown q → ∃ r s', loop (defaultConfig op) fuel q acc s = .ok (some r, s')) := by
  induction fuel generalizing q acc s with
  | zero =>
    cases q with
    | nil => exact ⟨fun h => by simp [AnyUnknown] at h, fun _ => ⟨_, _, rfl⟩⟩
    | cons v q => cases v <;> simp [sizes, Value.size] at hf
  | succ fuel ih =>
    cases q with
    | nil => exact ⟨fun h => by simp [AnyUnknown] at h, fun _ => ⟨_, _, rfl⟩⟩
    | cons v q =>
      simp only [AllNoCoreBool] at hb
      simp only [AnyUnknown]
      cases v with
      | bool b => simp [Value.NoCoreBool] at hb
      | function n => exact ⟨fun _ => ⟨_, rfl⟩, fun h => by simp [Value.Unknown] at h⟩
      | otherSum n =>
        have := ih q hb.2 (by simp only [sizes, Value.size] at hf; omega) acc s
        simpa [Value.Unknown, loop] using this
      | tuple vs =>
        have := ih (q ++ vs) ((allNoCoreBool_append _ _).2 ⟨hb.2, by simpa [Value.NoCoreBool] using hb.1⟩)
          (by rw [sizes_append]; simp only [sizes, Value.size] at hf; omega) acc s
        rw [anyUnknown_append] at this
        simp only [Value.Unknown, loop]
        rwa [or_comm]
      | ext l =>
        by_cases hl : l.Known
        · have := ih q hb.2 (by simp only [sizes, Value.size] at hf; omega) (acc.append (encodeLeaf l s).1)
            (encodeLeaf l s).2
          have hu : ¬ (Value.ext l).Unknown := by cases l <;> simp [Value.Unknown, Leaf.Known] at hl ⊢
          simp only [loop, default_leaf op l hl, hu, false_or]
          exact this
        · cases l with
          | other n es =>
            refine ⟨fun _ => ⟨s, ?_⟩, fun h => by simp [Value.Unknown] at h⟩
            simp only [loop, default_other]
          | _ => exact absurd trivial hl

/-- C86: a constant without booleans of the core type is refused exactly if it has something unknown in it. -/
theorem C86_refused_iff (op : Nat → Nat → State → Except Err (Bool × State)) (v : Value) (hb : v.NoCoreBool)
    (s : State) :
    (∃ s', constToPytket (defaultConfig op) v s = .ok (none, s')) ↔ v.Unknown := by
  obtain ⟨h1, h2⟩ := loop_unknown op v.size [v] (by simp [AllNoCoreBool, hb]) (by simp [sizes]) ⟨[], []⟩ s
  simp only [AnyUnknown, or_false] at h1 h2
  constructor
  · rintro ⟨s', h⟩
    refine Classical.byContradiction fun hu => ?_
    obtain ⟨r, s'', h'⟩ := h2 hu
    rw [constToPytket] at h
    rw [h] at h'
    cases h'
  · exact h1

/-- C86: a boolean of the core type. -/
theorem C86_boolean_partial (c : Config State) (b : Bool) (s : State) (used : List Nat) (h : s.Ok used)
    (hr : s.Reset) :
    ∃ x s', constToPytket c (.bool b) s = .ok (some ⟨[x], []⟩, s') ∧ s'.val x = b ∧ x ∉ used ∧
      ∀ y ∈ used, s'.val y = s.val y := by
  obtain ⟨x, h1, h2, h3, h4, h5, h6, h7⟩ := constBit_spec b s used h hr
  refine ⟨x, (constBit b s).2, ?_, h6, h2, fun y hy => h7 y fun e => h2 (e ▸ hy)⟩
  rw [← h1]
  rfl

theorem loop_prefix (op : Nat → Nat → State → Except Err (Bool × State)) (pre rest : List Value) (hp : AllPlain pre)
    (ha : ∀ v ∈ pre, v.Atom) (fuel : Nat) (acc : Vals) (s : State) :
    ∃ acc' s', loop (defaultConfig op) (fuel + pre.length) (pre ++ rest) acc s =
      loop (defaultConfig op) fuel rest acc' s' := by
  induction pre generalizing acc s with
  | nil => exact ⟨acc, s, rfl⟩
  | cons v pre ih =>
    simp only [AllPlain] at hp
    rw [List.forall_mem_cons] at ha
    rcases plain_cases v hp.1 with ⟨vs, rfl, _⟩ | ⟨l, rfl, hl⟩
    · exact ha.1.elim
    · obtain ⟨acc', s', e⟩ := ih hp.2 ha.2 (acc.append (encodeLeaf l s).1) (encodeLeaf l s).2
      refine ⟨acc', s', ?_⟩
      rw [← e, List.length_cons, ← Nat.add_assoc, List.cons_append]
      simp only [loop, default_leaf op l hl]

theorem sizes_ge (l : List Value) : l.length ≤ sizes l := by
  induction l with
  | nil => simp
  | cons v l ih =>
    have : 1 ≤ v.size := by cases v <;> simp [Value.size]
    simp only [sizes, List.length_cons]
    omega

/-- C86 fails of the code: of a tuple with a boolean of the core type, only the first such boolean is encoded, whatever
else is in the tuple. -/
theorem C86_tuple_wrong (op : Nat → Nat → State → Except Err (Bool × State)) (pre post : List Value) (b : Bool)
    (hp : AllPlain pre) (ha : ∀ v ∈ pre, v.Atom) (s : State) :
    ∃ x s', constToPytket (defaultConfig op) (.tuple (pre ++ .bool b :: post)) s = .ok (some ⟨[x], []⟩, s') := by
  have hlen := sizes_ge pre
  obtain ⟨k, hk⟩ : ∃ k, (Value.tuple (pre ++ .bool b :: post)).size = (k + 1 + pre.length) + 1 := by
    refine ⟨sizes pre - pre.length + sizes post, ?_⟩
    simp only [Value.size, sizes_append, sizes]
    omega
  have e : constToPytket (defaultConfig op) (.tuple (pre ++ .bool b :: post)) s =
      loop (defaultConfig op) (k + 1 + pre.length) (pre ++ .bool b :: post) ⟨[], []⟩ s := by
    rw [constToPytket, hk]
    rfl
  obtain ⟨acc', s', e'⟩ := loop_prefix op pre (.bool b :: post) hp ha (k + 1) ⟨[], []⟩ s
  rw [e, e']
  exact ⟨_, _, rfl⟩

/-- An empty context. -/
def start : State := ⟨0, [], [], fun _ => false⟩

/-- No operation is supported. -/
def noOp : Nat → Nat → State → Except Err (Bool × State) := fun _ _ s => .ok (false, s)

/-- The bits of the result hold these values. -/
def bitsHold (r : Except Err (Option Vals × State)) (bs : List Bool) : Bool :=
  match r with
  | .ok (some v, s) => v.bits.map s.val == bs
  | _ => false

/-- C86 fails of the code: the values of nested tuples are in the wrong order. -/
theorem C86_nested_wrong (a b c : Bool) :
    (Value.tuple [.tuple [.ext (.bool a), .ext (.bool b)], .ext (.bool c)]).bools = [a, b, c] ∧
      bitsHold (constToPytket (defaultConfig noOp)
        (.tuple [.tuple [.ext (.bool a), .ext (.bool b)], .ext (.bool c)]) start) [c, a, b] = true := by
  refine ⟨by simp [Value.bools, allBools], ?_⟩
  cases a <;> cases b <;> cases c <;> rfl

/-- C86 fails of the code: `false` in a bit that was used before has the value the bit had. Both kinds of booleans. -/
theorem C86_reuse_wrong (op : Nat → Nat → State → Except Err (Bool × State)) (s : State) (x : Nat) (u : List Nat)
    (h : s.unused = x :: u) :
    (∃ s', constToPytket (defaultConfig op) (.bool false) s = .ok (some ⟨[x], []⟩, s') ∧ s'.val x = s.val x) ∧
      ∃ s', constToPytket (defaultConfig op) (.ext (.bool false)) s = .ok (some ⟨[x], []⟩, s') ∧
        s'.val x = s.val x := by
  have e : constBit false s = (⟨[x], []⟩, { s with unused := u }) := by simp [constBit, newBit, h]
  refine ⟨⟨(constBit false s).2, ?_, by rw [e]⟩, (constBit false s).2, ?_, by rw [e]⟩
  · have : (⟨[x], []⟩ : Vals) = (constBit false s).1 := by rw [e]
    rw [this]; rfl
  · have : (⟨[x], []⟩ : Vals) = (constBit false s).1 := by rw [e]
    rw [this]; rfl

/-- C86 fails of the code: sums other than tuples are encoded without any values. -/
theorem C86_sum_wrong (c : Config State) (n : Nat) (s : State) :
    constToPytket c (.otherSum n) s = .ok (some ⟨[], []⟩, s) := rfl

/-- C86 fails of the code: a constant that is not supported has left a bit and a command in the context. -/
theorem C86_unsupported_wrong :
    ∃ s', constToPytket (defaultConfig noOp) (.tuple [.ext (.bool true), .function 0]) start = .ok (none, s') ∧
      s'.numBits = 1 ∧ s'.val 0 = true := ⟨_, rfl, rfl, rfl⟩

example : start.Ok [] ∧ start.Reset :=
  ⟨⟨by simp [start], by simp [start], by simp [start], by simp, fun _ _ => rfl⟩, by simp [State.Reset, start]⟩

example : (Value.tuple [.ext (.bool true), .ext (.float 4)]).Plain := by simp [Value.Plain, AllPlain]

example : bitsHold (constToPytket (defaultConfig noOp) (.tuple [.bool true, .bool false]) start) [true] = true := rfl

example : ∀ e ∈ (defaultConfig noOp).emitters, e.Clean ∧ e.Proper := by
  intro e he
  simp only [defaultConfig, Config.add, Config.empty, List.nil_append, List.cons_append, List.mem_cons,
    List.not_mem_nil, or_false] at he
  rcases he with rfl | rfl | rfl | rfl | rfl | rfl <;>
    exact ⟨fun op s s' h => by cases h; rfl, fun es h => by cases h; decide⟩

end Tket.EncConfig
