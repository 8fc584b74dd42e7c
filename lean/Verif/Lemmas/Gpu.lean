import Verif.Model.GpuSpec

/-
Lemmas on GPU calls.
-/
namespace Verif.Gpu

/-! ### Packing -/

theorem leBytes_length (k n : Nat) : (leBytes k n).length = k := by
  induction k generalizing n with
  | zero => rfl
  | succ k ih => simp [leBytes, ih]

theorem ofLe_leBytes (k n : Nat) : n < 256 ^ k → ofLe (leBytes k n) = n := by
  induction k generalizing n with
  | zero => intro h; simp at h; subst h; rfl
  | succ k ih =>
    intro h
    rw [leBytes, ofLe, ih]
    · omega
    · rw [Nat.pow_succ] at h; omega

theorem word_length (little : Bool) (n : Nat) : (word little n).length = 8 := by
  unfold word; split <;> simp [leBytes_length]

theorem readWord_word (little : Bool) (n : Nat) (h : n < 2 ^ 64) : readWord little (word little n) = n := by
  unfold readWord word
  cases little <;> simp [ofLe_leBytes 8 n (by omega)]

/-- Bytes of a value. -/
def bytesOf (little : Bool) : Val → List Nat
  | .int w n => if w = 1 then [n] else word little n
  | .float b => word little b
  | .other => []

theorem argSize_bytes (little : Bool) {v : Val} {a : Nat} (h : argSize v.ty = some a) :
    (bytesOf little v).length = a := by
  cases v with
  | int w n =>
    simp only [Val.ty, argSize] at h
    simp only [bytesOf]
    by_cases h1 : w = 1
    · rw [if_pos h1] at h ⊢; simpa using h
    · rw [if_neg h1] at h ⊢
      by_cases h2 : w = 64
      · rw [if_pos h2] at h; rw [word_length]; simpa using h
      · rw [if_neg h2] at h; simp at h
  | float b => simp only [Val.ty, argSize] at h; simp only [bytesOf, word_length]; simpa using h
  | other => simp [Val.ty, argSize] at h

theorem blobSize_bytes (little : Bool) {vs : List Val} {n : Nat} (h : blobSize (vs.map Val.ty) = some n) :
    (vs.flatMap (bytesOf little)).length = n := by
  induction vs generalizing n with
  | nil => simpa [blobSize] using h
  | cons v vs ih =>
    rw [List.map_cons, blobSize] at h
    cases ha : argSize v.ty with
    | none => rw [ha] at h; simp at h
    | some a =>
      rw [ha] at h
      cases hb : blobSize (vs.map Val.ty) with
      | none => rw [hb] at h; simp at h
      | some b =>
        rw [hb] at h
        simp at h
        rw [List.flatMap_cons, List.length_append, argSize_bytes little ha, ih hb, h]

theorem writeAt_spec {pre rest bytes : List Nat} (h : bytes.length ≤ rest.length) :
    writeAt (pre ++ rest) pre.length bytes = some (pre ++ bytes ++ rest.drop bytes.length) := by
  unfold writeAt
  rw [if_pos (by rw [List.length_append]; omega)]
  simp [List.drop_append]

theorem packLoop_spec (little : Bool) {vs : List Val} {n : Nat} {pre rest : List Nat}
    (h : blobSize (vs.map Val.ty) = some n) (hr : rest.length = n) :
    packLoop little (pre ++ rest) pre.length vs = some (pre ++ vs.flatMap (bytesOf little)) := by
  induction vs generalizing n pre rest with
  | nil =>
    simp [blobSize] at h
    subst h
    have : rest = [] := List.length_eq_zero_iff.mp hr
    subst this
    simp [packLoop]
  | cons v vs ih =>
    rw [List.map_cons, blobSize] at h
    cases ha : argSize v.ty with
    | none => rw [ha] at h; simp at h
    | some a =>
      rw [ha] at h
      cases hb : blobSize (vs.map Val.ty) with
      | none => rw [hb] at h; simp at h
      | some b =>
        rw [hb] at h
        simp at h
        have hlen := argSize_bytes little ha
        have hw := @writeAt_spec pre rest (bytesOf little v) (by omega)
        have hrec := @ih b (pre ++ bytesOf little v) (rest.drop (bytesOf little v).length) hb
          (by rw [List.length_drop]; omega)
        rw [List.flatMap_cons, ← List.append_assoc, ← hrec]
        cases v with
        | int w x =>
          simp only [Val.ty, argSize] at ha
          simp only [bytesOf] at hw hlen ⊢
          rw [packLoop]
          by_cases h1 : w = 1
          · rw [if_pos h1] at hw ha hlen ⊢
            rw [if_pos h1, hw]; simp
          · rw [if_neg h1] at hw ha hlen ⊢
            by_cases h2 : w = 64
            · rw [if_neg h1, if_pos h2, hw]; simp [word_length]
            · rw [if_neg h2] at ha; simp at ha
        | float x =>
          simp only [bytesOf] at hw ⊢
          rw [packLoop]
          rw [hw]; simp [word_length]
        | other => simp [Val.ty, argSize] at ha

theorem argChars_size {ts : List Ty} : (∃ cs, argChars ts = some cs) ↔ ∀ t ∈ ts, t.Passable := by
  induction ts with
  | nil => simp [argChars]
  | cons t ts ih =>
    rw [argChars]
    have h1 : (∃ c, argChar t = some c) ↔ t.Passable := by
      unfold Ty.Passable
      cases t with
      | int w =>
        simp only [argChar]
        by_cases h1 : w = 1
        · simp [h1]
        · by_cases h2 : w = 64
          · simp [h2]
          · simp [h1, h2]
      | float => simp [argChar]
      | other => simp [argChar]
    simp only [List.mem_cons, forall_eq_or_imp]
    rw [← ih, ← h1]
    cases argChar t with
    | none => simp
    | some c =>
      cases argChars ts with
      | none => simp
      | some cs => simp

theorem blobSize_iff {ts : List Ty} : (∃ n, blobSize ts = some n) ↔ ∀ t ∈ ts, t.Passable := by
  induction ts with
  | nil => simp [blobSize]
  | cons t ts ih =>
    rw [blobSize]
    have h1 : (∃ c, argSize t = some c) ↔ t.Passable := by
      unfold Ty.Passable
      cases t with
      | int w =>
        simp only [argSize]
        by_cases h1 : w = 1
        · simp [h1]
        · by_cases h2 : w = 64
          · simp [h2]
          · simp [h1, h2]
      | float => simp [argSize]
      | other => simp [argSize]
    simp only [List.mem_cons, forall_eq_or_imp]
    rw [← ih, ← h1]
    cases argSize t with
    | none => simp
    | some c =>
      cases blobSize ts with
      | none => simp
      | some cs => simp

theorem outChar_iff {ts : List Ty} : (∃ c, outChar ts = some c) ↔ Returnable ts := by
  unfold Returnable outChar
  split
  · simp
  · rename_i t
    by_cases h1 : t = .int 64
    · simp [h1]
    · by_cases h2 : t = .float
      · simp [h2]
      · simp [h1, h2]
  · rename_i h1 h2
    simp only [reduceCtorEq, exists_false, false_iff]
    rintro (h | h | h)
    · exact h1 h
    · exact h2 _ h
    · exact h2 _ h

theorem unpack_bytes (little : Bool) {vs : List Val} {cs : Sym} (tail : Sym)
    (h : argChars (vs.map Val.ty) = some cs) (hr : ∀ v ∈ vs, v.InRange) :
    unpack little (cs ++ ':' :: tail) (vs.flatMap (bytesOf little)) = some vs := by
  induction vs generalizing cs with
  | nil =>
    simp [argChars] at h
    subst h
    simp [unpack]
  | cons v vs ih =>
    rw [List.map_cons, argChars] at h
    cases ha : argChar v.ty with
    | none => rw [ha] at h; simp at h
    | some c =>
      rw [ha] at h
      cases hb : argChars (vs.map Val.ty) with
      | none => rw [hb] at h; simp at h
      | some b =>
        rw [hb] at h
        simp at h
        subst h
        have hrec := ih hb (fun v hv => hr v (by simp [hv]))
        have hv := hr v (by simp)
        rw [List.flatMap_cons, List.cons_append]
        cases v with
        | int w x =>
          simp only [Val.ty, argChar] at ha
          simp only [bytesOf]
          by_cases h1 : w = 1
          · rw [if_pos h1] at ha ⊢
            simp at ha
            subst ha
            rw [unpack]
            simp [hrec, h1]
          · rw [if_neg h1] at ha ⊢
            by_cases h2 : w = 64
            · rw [if_pos h2] at ha
              simp at ha
              subst ha
              subst h2
              have hx : x < 2 ^ 64 := hv
              rw [unpack, if_neg (by decide), if_neg (by decide), if_neg (by
                rw [List.length_append, word_length]; omega), if_pos rfl]
              have e1 : (word little x ++ vs.flatMap (bytesOf little)).take 8 = word little x := by
                rw [List.take_left' (word_length _ _)]
              have e2 : (word little x ++ vs.flatMap (bytesOf little)).drop 8 = vs.flatMap (bytesOf little) := by
                rw [List.drop_left' (word_length _ _)]
              rw [e1, e2, hrec, readWord_word _ _ hx]
              rfl
            · rw [if_neg h2] at ha; simp at ha
        | float x =>
          simp only [Val.ty, argChar] at ha
          simp at ha
          subst ha
          simp only [bytesOf]
          have hx : x < 2 ^ 64 := hv
          rw [unpack, if_neg (by decide), if_neg (by decide), if_neg (by
            rw [List.length_append, word_length]; omega), if_neg (by decide), if_pos rfl]
          have e1 : (word little x ++ vs.flatMap (bytesOf little)).take 8 = word little x := by
            rw [List.take_left' (word_length _ _)]
          have e2 : (word little x ++ vs.flatMap (bytesOf little)).drop 8 = vs.flatMap (bytesOf little) := by
            rw [List.drop_left' (word_length _ _)]
          rw [e1, e2, hrec, readWord_word _ _ hx]
          rfl
        | other => simp [Val.ty, argChar] at ha

theorem signature_announces {args outs : List Ty} {sig : Sym} (h : signature args outs = some sig) :
    announces sig outs ∧ ∃ cs o, argChars args = some cs ∧ sig = cs ++ ':' :: [o] := by
  rw [signature] at h
  cases ha : argChars args with
  | none => rw [ha] at h; simp at h
  | some cs =>
    rw [ha] at h
    cases ho : outChar outs with
    | none => rw [ho] at h; simp at h
    | some o =>
      rw [ho] at h
      simp at h
      subst h
      refine ⟨?_, cs, o, rfl, rfl⟩
      have hret := outChar_iff.mp ⟨o, ho⟩
      unfold announces
      rcases hret with rfl | rfl | rfl <;> simp [outChar] at ho <;> subst ho <;> simp

theorem signature_iff {args outs : List Ty} :
    (∃ s, signature args outs = some s) ↔ (∀ t ∈ args, t.Passable) ∧ Returnable outs := by
  rw [← argChars_size, ← outChar_iff, signature]
  cases argChars args with
  | none => simp
  | some a =>
    cases outChar outs with
    | none => simp
    | some o => simp

/-! ### Symbols -/

theorem lookSym_inj {a b : Sym} : lookSym a = lookSym b ↔ a = b := by simp [lookSym]
theorem flagSym_inj {a b : Sym} : flagSym a = flagSym b ↔ a = b := by simp [flagSym]
theorem idSym_inj {a b : Sym} : idSym a = idSym b ↔ a = b := by simp [idSym]

/-- Symbols of functions. -/
inductive FSym : Sym → Prop
  | resp : FSym respSym
  | err : FSym errSym
  | val : FSym valSym
  | look (n : Sym) : FSym (lookSym n)

/-- Symbols of variables. -/
inductive GSym : Sym → Prop
  | val : GSym valFlag
  | flag (n : Sym) : GSym (flagSym n)
  | id (n : Sym) : GSym (idSym n)

theorem FSym.ne {s t : Sym} (h : FSym s) (h' : GSym t) : s ≠ t := by
  cases h <;> cases h' <;>
    simp [respSym, errSym, valSym, lookSym, valFlag, flagSym, idSym]

theorem flag_ne_id (a b : Sym) : flagSym a ≠ idSym b := by simp [flagSym, idSym]
theorem flag_ne_val (a : Sym) : flagSym a ≠ valFlag := by simp [flagSym, valFlag]
theorem id_ne_val (a : Sym) : idSym a ≠ valFlag := by simp [idSym, valFlag]
theorem err_ne_resp : errSym ≠ respSym := by simp [errSym, respSym]
theorem val_ne_resp : valSym ≠ respSym := by simp [valSym, respSym]
theorem val_ne_err : valSym ≠ errSym := by simp [valSym, errSym]
theorem look_ne_resp (a : Sym) : lookSym a ≠ respSym := by simp [lookSym, respSym]
theorem look_ne_err (a : Sym) : lookSym a ≠ errSym := by simp [lookSym, errSym]
theorem look_ne_val (a : Sym) : lookSym a ≠ valSym := by simp [lookSym, valSym]

/-- The body that belongs to a symbol. -/
inductive Std : Sym → Body → Prop
  | resp : Std respSym .response
  | err : Std errSym .error
  | val : Std valSym (.validate valFlag)
  | look (n : Sym) : Std (lookSym n) (.lookup (flagSym n) (idSym n) n)

theorem Std.fsym {s : Sym} {b : Body} (h : Std s b) : FSym s := by cases h <;> constructor

/-- The module has a function. -/
def Module.has (m : Module) (s : Sym) : Prop := (getFunc m.funcs s).isSome = true

/-- Part of the invariant of modules that always holds. -/
structure W (m : Module) : Prop where
  others : Unused m.others
  bodies : ∀ s b, getFunc m.funcs s = some b → Std s b
  gsep : ∀ g ∈ m.globals, GSym g

theorem Unused.fsym {l : List Sym} (h : Unused l) {s : Sym} (hs : FSym s) : s ∉ l := by
  obtain ⟨h1, h2, h3, _, h4⟩ := h
  cases hs with
  | resp => exact h1
  | err => exact h2
  | val => exact h3
  | look n => exact (h4 n).1

theorem Unused.gsym {l : List Sym} (h : Unused l) {s : Sym} (hs : GSym s) : s ∉ l := by
  obtain ⟨_, _, _, h3, h4⟩ := h
  cases hs with
  | val => exact h3
  | flag n => exact (h4 n).2.1
  | id n => exact (h4 n).2.2

theorem not_has {m : Module} {s : Sym} : ¬ m.has s ↔ getFunc m.funcs s = none := by
  unfold Module.has; cases getFunc m.funcs s <;> simp

theorem addFunc_ok {m : Module} (hm : W m) {s : Sym} {b : Body} (hs : Std s b)
    (hn : getFunc m.funcs s = none) :
    ∃ m', addFunc m s b = some m' ∧ W m' ∧ m'.globals = m.globals ∧ ∀ t, m'.has t ↔ m.has t ∨ t = s := by
  have h1 : m.used s = false := by
    unfold Module.used
    have ho := hm.others.fsym hs.fsym
    have hg : s ∉ m.globals := fun h => hs.fsym.ne (hm.gsep s h) rfl
    simp [ho, hg, hn]
  refine ⟨{ m with funcs := (s, b) :: m.funcs }, by rw [addFunc, h1]; rfl,
    ⟨hm.others, ?_, hm.gsep⟩, rfl, ?_⟩
  · intro t c h
    simp only [getFunc] at h
    by_cases h2 : s = t
    · rw [if_pos h2] at h
      simp at h
      subst h; subst h2; exact hs
    · rw [if_neg h2] at h; exact hm.bodies t c h
  · intro t
    unfold Module.has
    simp only [getFunc]
    by_cases h2 : s = t
    · simp [h2]
    · rw [if_neg h2]; simp [Ne.symm h2]

theorem addGlobal_ok {m : Module} (hm : W m) {s : Sym} (hs : GSym s) (hn : s ∉ m.globals) :
    ∃ m', addGlobal m s = some m' ∧ W m' ∧ m'.globals = s :: m.globals ∧ ∀ t, m'.has t ↔ m.has t := by
  have hf : getFunc m.funcs s = none := by
    cases h : getFunc m.funcs s with
    | none => rfl
    | some b => exact absurd rfl ((hm.bodies s b h).fsym.ne hs)
  have h1 : m.used s = false := by
    unfold Module.used
    have ho := hm.others.gsym hs
    simp [ho, hn, hf]
  refine ⟨{ m with globals := s :: m.globals }, by rw [addGlobal, h1]; rfl,
    ⟨hm.others, hm.bodies, ?_⟩, rfl, fun t => Iff.rfl⟩
  intro g hg
  rcases List.mem_cons.mp hg with rfl | hg
  · exact hs
  · exact hm.gsep g hg

theorem ensureError_ok {m : Module} (hm : W m) :
    ∃ m', ensureError m = some m' ∧ W m' ∧ m'.globals = m.globals ∧
      ∀ t, m'.has t ↔ m.has t ∨ t = errSym := by
  rw [ensureError]
  cases h : getFunc m.funcs errSym with
  | some b =>
    refine ⟨m, rfl, hm, rfl, fun t => ⟨Or.inl, ?_⟩⟩
    rintro (h1 | rfl)
    · exact h1
    · unfold Module.has; rw [h]; rfl
  | none => exact addFunc_ok hm .err h

theorem ensureResponse_ok {m : Module} (hm : W m) (hc : m.has respSym → m.has errSym) :
    ∃ m', ensureResponse m = some m' ∧ W m' ∧ m'.globals = m.globals ∧
      ∀ t, m'.has t ↔ m.has t ∨ t = respSym ∨ t = errSym := by
  rw [ensureResponse]
  cases h : getFunc m.funcs respSym with
  | some b =>
    have hr : m.has respSym := by unfold Module.has; rw [h]; rfl
    refine ⟨m, rfl, hm, rfl, fun t => ⟨Or.inl, ?_⟩⟩
    rintro (h1 | rfl | rfl)
    · exact h1
    · exact hr
    · exact hc hr
  | none =>
    obtain ⟨m1, e1, w1, g1, h1⟩ := addFunc_ok hm .resp h
    obtain ⟨m2, e2, w2, g2, h2⟩ := ensureError_ok w1
    refine ⟨m2, by simp only [e1, Option.bind_some, e2], w2, g2.trans g1, fun t => ?_⟩
    rw [h2, h1, or_assoc]

/-- The invariant of modules. -/
structure MInv (m : Module) : Prop extends W m where
  vg : valFlag ∈ m.globals → m.has valSym
  fg : ∀ n, flagSym n ∈ m.globals → m.has (lookSym n)
  ig : ∀ n, idSym n ∈ m.globals → m.has (lookSym n)
  cResp : m.has respSym → m.has errSym
  cVal : m.has valSym → m.has respSym
  cLook : ∀ n, m.has (lookSym n) → m.has valSym

/-- A module has at least the functions of another one. -/
def Module.le (m m' : Module) : Prop := ∀ t, m.has t → m'.has t

theorem ensureResponse_inv {m : Module} (hm : MInv m) :
    ∃ m', ensureResponse m = some m' ∧ MInv m' ∧ m.le m' ∧ m'.has respSym := by
  obtain ⟨m', e, w, g, h⟩ := ensureResponse_ok hm.toW hm.cResp
  refine ⟨m', e, ⟨w, ?_, ?_, ?_, ?_, ?_, ?_⟩, fun t ht => (h t).mpr (.inl ht), by rw [h]; simp⟩
  · rw [g, h]; exact fun x => .inl (hm.vg x)
  · intro n; rw [g, h]; exact fun x => .inl (hm.fg n x)
  · intro n; rw [g, h]; exact fun x => .inl (hm.ig n x)
  · intro _; rw [h]; simp
  · intro _; rw [h]; simp
  · intro n hn
    rw [h] at hn ⊢
    rcases hn with hn | hn | hn
    · exact .inl (hm.cLook n hn)
    · exact absurd hn (look_ne_resp n)
    · exact absurd hn (look_ne_err n)

theorem ensureValidate_ok {m : Module} (hm : W m) (hc : m.has respSym → m.has errSym)
    (hv : m.has valSym → m.has respSym) (hg : valFlag ∈ m.globals → m.has valSym) :
    ∃ m', ensureValidate m = some m' ∧ W m' ∧ (∀ g, g ∈ m'.globals → g ∈ m.globals ∨ g = valFlag) ∧
      ∀ t, m'.has t ↔ m.has t ∨ t = valSym ∨ t = respSym ∨ t = errSym := by
  rw [ensureValidate]
  cases h : getFunc m.funcs valSym with
  | some b =>
    have hr : m.has valSym := by unfold Module.has; rw [h]; rfl
    refine ⟨m, rfl, hm, fun g => .inl, fun t => ⟨Or.inl, ?_⟩⟩
    rintro (h1 | rfl | rfl | rfl)
    · exact h1
    · exact hr
    · exact hv hr
    · exact hc (hv hr)
  | none =>
    obtain ⟨m1, e1, w1, g1, h1⟩ := addGlobal_ok hm .val (fun x => not_has.mpr h (hg x))
    obtain ⟨m2, e2, w2, g2, h2⟩ := addFunc_ok w1 .val (by
      rw [← not_has, h1, not_has]; exact h)
    obtain ⟨m3, e3, w3, g3, h3⟩ := ensureResponse_ok w2 (by
      rw [h2, h2, h1, h1]
      rintro (x | x)
      · exact .inl (hc x)
      · exact absurd x.symm val_ne_resp)
    refine ⟨m3, by simp only [e1, Option.bind_some, e2, e3], w3, ?_, ?_⟩
    · intro g
      rw [g3, g2, g1]
      intro x
      rcases List.mem_cons.mp x with x | x
      · exact .inr x
      · exact .inl x
    · intro t
      rw [h3, h2, h1, or_assoc]

theorem ensureValidate_inv {m : Module} (hm : MInv m) :
    ∃ m', ensureValidate m = some m' ∧ MInv m' ∧ m.le m' ∧ m'.has valSym := by
  obtain ⟨m', e, w, g, h⟩ := ensureValidate_ok hm.toW hm.cResp hm.cVal hm.vg
  refine ⟨m', e, ⟨w, ?_, ?_, ?_, ?_, ?_, ?_⟩, fun t ht => (h t).mpr (.inl ht), by rw [h]; simp⟩
  · intro _; rw [h]; simp
  · intro n x
    rw [h]
    rcases g _ x with x | x
    · exact .inl (hm.fg n x)
    · exact absurd x (flag_ne_val n)
  · intro n x
    rw [h]
    rcases g _ x with x | x
    · exact .inl (hm.ig n x)
    · exact absurd x (id_ne_val n)
  · intro _; rw [h]; simp
  · intro _; rw [h]; simp
  · intro n _; rw [h]; simp

theorem ensureLookup_inv {m : Module} (hm : MInv m) (n : Sym) :
    ∃ m', ensureLookup m n = some m' ∧ MInv m' ∧ m.le m' ∧ m'.has (lookSym n) := by
  rw [ensureLookup]
  cases h : getFunc m.funcs (lookSym n) with
  | some b => exact ⟨m, rfl, hm, fun _ => id, by unfold Module.has; rw [h]; rfl⟩
  | none =>
    have hn := not_has.mpr h
    obtain ⟨m1, e1, w1, g1, h1⟩ := addGlobal_ok hm.toW (.flag n) (fun x => hn (hm.fg n x))
    obtain ⟨m2, e2, w2, g2, h2⟩ := addGlobal_ok w1 (.id n) (by
      rw [g1]
      intro x
      rcases List.mem_cons.mp x with x | x
      · exact flag_ne_id n n x.symm
      · exact hn (hm.ig n x))
    obtain ⟨m3, e3, w3, g3, h3⟩ := addFunc_ok w2 (.look n) (by
      rw [← not_has, h2, h1, not_has]; exact h)
    have k3 : ∀ t, m3.has t ↔ m.has t ∨ t = lookSym n := by intro t; rw [h3, h2, h1]
    have kg : ∀ g, g ∈ m3.globals → g ∈ m.globals ∨ g = flagSym n ∨ g = idSym n := by
      intro g
      rw [g3, g2, g1]
      intro x
      rcases List.mem_cons.mp x with x | x
      · exact .inr (.inr x)
      · rcases List.mem_cons.mp x with x | x
        · exact .inr (.inl x)
        · exact .inl x
    obtain ⟨m4, e4, w4, g4, h4⟩ := ensureValidate_ok w3 (by
        rw [k3, k3]
        rintro (x | x)
        · exact .inl (hm.cResp x)
        · exact absurd x.symm (look_ne_resp n)) (by
        rw [k3, k3]
        rintro (x | x)
        · exact .inl (hm.cVal x)
        · exact absurd x.symm (look_ne_val n)) (by
        intro x
        rw [k3]
        rcases kg _ x with x | x | x
        · exact .inl (hm.vg x)
        · exact absurd x.symm (flag_ne_val n)
        · exact absurd x.symm (id_ne_val n))
    have k4 : ∀ t, m4.has t ↔ (m.has t ∨ t = lookSym n) ∨ t = valSym ∨ t = respSym ∨ t = errSym := by
      intro t; rw [h4, k3]
    have i4 : MInv m4 := by
      refine ⟨w4, ?_, ?_, ?_, ?_, ?_, ?_⟩
      · intro _; rw [k4]; simp
      · intro k x
        rw [k4]
        rcases g4 _ x with x | x
        · rcases kg _ x with x | x | x
          · exact .inl (.inl (hm.fg k x))
          · rw [flagSym_inj.mp x]; simp
          · exact absurd x (flag_ne_id _ _)
        · exact absurd x (flag_ne_val k)
      · intro k x
        rw [k4]
        rcases g4 _ x with x | x
        · rcases kg _ x with x | x | x
          · exact .inl (.inl (hm.ig k x))
          · exact absurd x.symm (flag_ne_id _ _)
          · rw [idSym_inj.mp x]; simp
        · exact absurd x (id_ne_val k)
      · intro _; rw [k4]; simp
      · intro _; rw [k4]; simp
      · intro _ _; rw [k4]; simp
    obtain ⟨m5, e5, i5, l5, _⟩ := ensureResponse_inv i4
    refine ⟨m5, by simp only [e1, e2, e3, e4, e5, Option.bind_some], i5, ?_, ?_⟩
    · intro t ht; exact l5 t ((k4 t).mpr (.inl (.inl ht)))
    · exact l5 _ ((k4 _).mpr (.inl (.inr rfl)))

/-! ### Emission -/

/-- The code of an operation and the functions that it needs. -/
def Emitted (m : Module) : Site → Instr → Prop
  | .getContext w, i => i = .getContext w ∧ m.has valSym ∧ m.has respSym
  | .dispose, i => i = .dispose ∧ m.has respSym
  | .lookupById id, i => i = .const id
  | .lookupByName n, i => i = .lookup (lookSym n) ∧ m.has (lookSym n)
  | .call args outs, i => ∃ size sig, i = .call size sig ∧ blobSize args = some size ∧
      signature args outs = some sig ∧ m.has respSym
  | .readResult outs, i => (outs = [] ∧ i = .pass) ∨
      (m.has respSym ∧ ((outs = [.int 64] ∧ i = .readInt) ∨ (outs = [.float] ∧ i = .readFloat)))

theorem Emitted.mono {m m' : Module} (h : m.le m') {s : Site} {i : Instr} (he : Emitted m s i) :
    Emitted m' s i := by
  cases s with
  | getContext w => obtain ⟨h1, h2, h3⟩ := he; exact ⟨h1, h _ h2, h _ h3⟩
  | dispose => obtain ⟨h1, h2⟩ := he; exact ⟨h1, h _ h2⟩
  | lookupById id => exact he
  | lookupByName n => obtain ⟨h1, h2⟩ := he; exact ⟨h1, h _ h2⟩
  | call a o => obtain ⟨s, g, h1, h2, h3, h4⟩ := he; exact ⟨s, g, h1, h2, h3, h _ h4⟩
  | readResult o =>
    rcases he with he | ⟨h1, h2⟩
    · exact .inl he
    · exact .inr ⟨h _ h1, h2⟩

theorem emitSite_ok {m : Module} (hm : MInv m) {s : Site} (hs : s.Supported) :
    ∃ m' i, emitSite m s = some (m', i) ∧ MInv m' ∧ m.le m' ∧ Emitted m' s i := by
  cases s with
  | getContext w =>
    obtain ⟨m1, e1, i1, l1, v1⟩ := ensureValidate_inv hm
    obtain ⟨m2, e2, i2, l2, v2⟩ := ensureResponse_inv i1
    exact ⟨m2, _, by simp only [emitSite, e1, e2, Option.bind_some, Option.map_some], i2,
      fun t ht => l2 t (l1 t ht), rfl, l2 _ v1, v2⟩
  | dispose =>
    obtain ⟨m2, e2, i2, l2, v2⟩ := ensureResponse_inv hm
    exact ⟨m2, _, by simp only [emitSite, e2, Option.map_some], i2, l2, rfl, v2⟩
  | lookupById k => exact ⟨m, _, rfl, hm, fun _ => id, rfl⟩
  | lookupByName n =>
    obtain ⟨m2, e2, i2, l2, v2⟩ := ensureLookup_inv hm n
    exact ⟨m2, _, by simp only [emitSite, e2, Option.map_some], i2, l2, rfl, v2⟩
  | call a o =>
    obtain ⟨sig, h1⟩ := signature_iff.mpr hs
    obtain ⟨n, h2⟩ := blobSize_iff.mpr hs.1
    obtain ⟨m2, e2, i2, l2, v2⟩ := ensureResponse_inv hm
    exact ⟨m2, _, by simp only [emitSite, h1, h2, e2, Option.map_some, Option.bind_some], i2, l2,
      n, sig, rfl, h2, h1, v2⟩
  | readResult o =>
    rcases hs with rfl | rfl | rfl
    · exact ⟨m, _, rfl, hm, fun _ => id, .inl ⟨rfl, rfl⟩⟩
    · obtain ⟨m2, e2, i2, l2, v2⟩ := ensureResponse_inv hm
      exact ⟨m2, .readInt, by simp only [emitSite, e2, Option.bind_some, if_true], i2, l2,
        .inr ⟨v2, .inl ⟨rfl, rfl⟩⟩⟩
    · obtain ⟨m2, e2, i2, l2, v2⟩ := ensureResponse_inv hm
      exact ⟨m2, .readFloat, by simp [emitSite, e2], i2, l2, .inr ⟨v2, .inr ⟨rfl, rfl⟩⟩⟩

theorem emitSite_supported {m : Module} {s : Site} {r : Module × Instr} (h : emitSite m s = some r) :
    s.Supported := by
  cases s with
  | call a o =>
    simp only [emitSite] at h
    cases h1 : signature a o with
    | none => rw [h1] at h; simp at h
    | some sig => exact signature_iff.mp ⟨sig, h1⟩
  | readResult o =>
    simp only [emitSite] at h
    split at h
    · exact .inl rfl
    · rename_i t
      cases h1 : ensureResponse m with
      | none => rw [h1] at h; simp at h
      | some m1 =>
        rw [h1] at h
        simp only [Option.bind_some] at h
        by_cases h2 : t = .int 64
        · subst h2; exact .inr (.inl rfl)
        · rw [if_neg h2] at h
          by_cases h3 : t = .float
          · subst h3; exact .inr (.inr rfl)
          · rw [if_neg h3] at h; simp at h
    · simp at h
  | _ => trivial

theorem emitAll_ok {ss : List Site} {m : Module} (hm : MInv m) (hs : ∀ s ∈ ss, s.Supported) :
    ∃ m' is, emitAll m ss = some (m', is) ∧ MInv m' ∧ m.le m' ∧ List.Forall₂ (Emitted m') ss is := by
  induction ss generalizing m with
  | nil => exact ⟨m, [], rfl, hm, fun _ => id, .nil⟩
  | cons s ss ih =>
    obtain ⟨m1, i, e1, i1, l1, em1⟩ := emitSite_ok hm (hs s (by simp))
    obtain ⟨m2, is, e2, i2, l2, em2⟩ := ih i1 (fun s h => hs s (by simp [h]))
    exact ⟨m2, i :: is, by simp only [emitAll, e1, e2, Option.bind_some, Option.map_some], i2,
      fun t ht => l2 t (l1 t ht), .cons (em1.mono l2) em2⟩

theorem emitAll_supported {ss : List Site} {m : Module} {r : Module × List Instr}
    (h : emitAll m ss = some r) : ∀ s ∈ ss, s.Supported := by
  induction ss generalizing m r with
  | nil => simp
  | cons s ss ih =>
    rw [emitAll] at h
    cases h1 : emitSite m s with
    | none => rw [h1] at h; simp at h
    | some r1 =>
      rw [h1] at h
      simp only [Option.bind_some] at h
      cases h2 : emitAll r1.1 ss with
      | none => rw [h2] at h; simp at h
      | some q =>
        intro x hx
        rcases List.mem_cons.mp hx with rfl | hx
        · exact emitSite_supported h1
        · exact ih h2 x hx

theorem MInv.fresh {others : List Sym} (h : Unused others) : MInv ⟨others, [], []⟩ := by
  refine ⟨⟨h, ?_, ?_⟩, ?_, ?_, ?_, ?_, ?_, ?_⟩ <;> simp [getFunc, Module.has]

end Verif.Gpu
