import Verif.Lemmas.Results

/-
Property C66: constant strings, reported results and exit codes.
-/
namespace Verif.Results

/-- Emitting a constant string fails exactly if prefix and string have 256 bytes or more, whatever
the hash function and whatever is in the module; in particular the search for a name always ends. -/
theorem C66_string_iff (w : World) (m : Globals) (r : Request) :
    (∃ m' n, emitString w m r.str r.pre r.strPre = .ok m' n) ↔
      (w.enc (r.strPre ++ r.str)).length < 256 := by
  rcases emitString_cases w m r with ⟨h1, m', n, h2, _⟩ | ⟨h1, h2⟩
  · simp only [Request.content, List.length_cons] at h1
    exact ⟨fun _ => by omega, fun _ => ⟨m', n, h2⟩⟩
  · simp only [Request.content, List.length_cons] at h1
    refine ⟨?_, fun h => by omega⟩
    rintro ⟨m', n, h3⟩
    rw [h3] at h2
    simp at h2

/-- After any number of strings was emitted, with any hash function, every returned variable holds
its own string after a byte with its length; variables that existed before are unchanged. -/
theorem C66_string_content (w : World) (m m' : Globals) (rs : List Request) (ns : List Str)
    (h : emitMany w m rs = some (m', ns)) :
    ns.map (find m') = rs.map (fun r => some (some (r.content w))) ∧
      ∀ k v, find m k = some v → find m' k = some v :=
  ⟨emitMany_content h, emitMany_keeps h⟩

/-- A string that was emitted before, with the same prefixes, is the same variable and the module is
not changed, whatever was emitted in between. -/
theorem C66_string_reused (w : World) (m m1 m2 : Globals) (r : Request) (rs : List Request)
    (n : Str) (ns : List Str) (h1 : emitString w m r.str r.pre r.strPre = .ok m1 n)
    (h2 : emitMany w m1 rs = some (m2, ns)) :
    emitString w m2 r.str r.pre r.strPre = .ok m2 n := by
  have hl : (w.enc (r.strPre ++ r.str)).length < 256 := (C66_string_iff w m r).mp ⟨m1, n, h1⟩
  simp only [emitString] at h1 ⊢
  rw [if_pos hl] at h1 ⊢
  have hle : ∀ {rs : List Request} {m m' : Globals} {ns : List Str},
      emitMany w m rs = some (m', ns) → m.length ≤ m'.length := by
    intro rs
    induction rs with
    | nil =>
      intro m m' ns h
      simp only [emitMany, Option.some.injEq, Prod.mk.injEq] at h
      rw [h.1]
    | cons r rs ih =>
      intro m m' ns h
      rw [emitMany] at h
      rcases emitString_cases w m r with ⟨_, m3, n3, h3, _, h4⟩ | ⟨_, h3⟩
      · rw [h3] at h
        simp only at h
        cases h5 : emitMany w m3 rs with
        | none => rw [h5] at h; simp at h
        | some p =>
          obtain ⟨m6, ns6⟩ := p
          rw [h5] at h
          simp only [Option.map_some, Option.some.injEq, Prod.mk.injEq] at h
          have := ih h5
          rw [← h.1]
          rcases h4 with ⟨e, _⟩ | ⟨_, e⟩
          · rw [← e]; exact this
          · rw [e, List.length_append] at this; omega
      · rw [h3] at h; simp at h
  have hm : m.length ≤ m1.length := by
    rcases (search_ok h1).2 with ⟨e, _⟩ | ⟨_, e⟩
    · rw [e]
    · rw [e, List.length_append]; omega
  exact search_again h1 (by have := hle h2; omega) (fun k v hk => emitMany_keeps h2 k v hk)

theorem wantedTag_eq (op : ROp) : wantedTag op = tagPrefix op.op ++ op.tag := by
  obtain ⟨tag, d, args⟩ := op
  cases d <;> simp [wantedTag, tagPrefix, Def.typeName, Def.isArr]

theorem printFn_prints (d : Def) : (printFn d).prints = (d.shape, d.isArr) := by
  cases d <;> rfl

/-- The tag of a report determines the tag of the user and the type, except that signed and
unsigned integers share their prefix. -/
theorem C66_tag_injective (w : World) (hw : ∀ a b, w.enc a = w.enc b → a = b) (op op' : ROp)
    (h : w.enc (wantedTag op) = w.enc (wantedTag op')) :
    op.tag = op'.tag ∧ op.op.typeName = op'.op.typeName ∧ op.op.isArr = op'.op.isArr := by
  have h := hw _ _ h
  rw [wantedTag_eq, wantedTag_eq] at h
  obtain ⟨t, d, args⟩ := op
  obtain ⟨t', d', args'⟩ := op'
  simp only at h
  cases d <;> cases d' <;> simp [tagPrefix, Def.typeName, Def.isArr] at h ⊢ <;> exact h

/-- Results are reported as they should be, with the tag and all values, for 64-bit integers,
booleans and floats and arrays of them; the tag must not be empty and, with its prefix, must have
less than 256 bytes. -/
theorem C66_report_partial (w : World) (op : ROp) (m : Globals) (v : Data) (junk : Nat → Nat)
    (hwf : op.wf) (hv : op.accepts v) (hwide : op.wide) (ht : op.tag ≠ [])
    (hl : (w.enc (wantedTag op)).length < 256)
    (hs : ∀ s n, op.args = .array s n → n < 2 ^ 32) :
    ∃ m' r, emitResult w op m v junk = .report m' r ∧ r.wanted w op v ∧
      ∀ k x, find m k = some x → find m' k = some x := by
  rw [wantedTag_eq] at hl
  rcases emitString_cases w m ⟨op.tag, ['r','e','s','_'], tagPrefix op.op⟩ with
    ⟨_, m', n, h1, h2, _⟩ | ⟨h1, _⟩
  · refine ⟨m', ⟨printFn op.op, w.enc (tagPrefix op.op ++ op.tag), v.values⟩, ?_,
      ⟨printFn_prints _, by rw [wantedTag_eq], rfl⟩, fun k x hk => emitString_keeps h1 hk⟩
    have htag : tagAt m' n = w.enc (tagPrefix op.op ++ op.tag) := by
      simp only [tagAt, h2, Request.content, List.take_length]
    rw [emitResult, if_neg ht]
    simp only at h1
    rw [h1]
    simp only
    have h8 : elemBytes op.op
        (match op.args with
          | .simple s => s
          | .array s _ => s) = printBytes op.op := by
      obtain ⟨tag, d, args⟩ := op
      cases args with
      | simple s =>
        cases s with
        | basic => cases d <;> simp_all [ROp.wf, elemBytes, printBytes]
        | int w' => cases d <;> simp_all [ROp.wf, ROp.wide, elemBytes, printBytes, intBytes]
      | array s size =>
        cases s with
        | basic => cases d <;> simp_all [ROp.wf, elemBytes, printBytes]
        | int w' => cases d <;> simp_all [ROp.wf, ROp.wide, elemBytes, printBytes, intBytes]
    obtain ⟨tag, d, args⟩ := op
    cases args with
    | simple s =>
      cases v with
      | many ns => exact hv.elim
      | one x =>
        simp only at h8 htag
        cases d <;> first
          | (exfalso; cases s <;> exact hwf)
          | (simp only [callPrint, h8, if_true, htag, Data.values])
    | array s size =>
      cases v with
      | one x => exact hv.elim
      | many ns =>
        obtain ⟨hv1, hv2⟩ := hv
        have hsz := hs s size rfl
        simp only at h8 htag hv2
        subst hv1
        have hr := readArr_put (printBytes d) ns junk (by rw [← h8]; exact hv2)
        cases d <;> first
          | (exfalso; cases s <;> exact hwf)
          | (simp only [callPrint, h8, if_pos hsz, htag, Data.values, hr])
  · simp only [Request.content, List.length_cons] at h1
    omega

/-- The compiler panics for empty tags and for tags that are too long, for every type of result. -/
theorem C66_bad_tag_panics (w : World) (op : ROp) (m : Globals) (v : Data) (junk : Nat → Nat)
    (h : op.tag = [] ∨ 256 ≤ (w.enc (wantedTag op)).length) :
    emitResult w op m v junk = .panic := by
  rw [wantedTag_eq] at h
  by_cases ht : op.tag = []
  · rw [emitResult, if_pos ht]
  · have hl : 256 ≤ (w.enc (tagPrefix op.op ++ op.tag)).length := h.resolve_left ht
    rw [emitResult, if_neg ht]
    simp only [emitString]
    rw [if_neg (by omega)]

/-- Single integers of another width are refused. -/
theorem C66_width_refused (w : World) (op : ROp) (m : Globals) (n k : Nat) (junk : Nat → Nat)
    (hd : op.op = .int ∨ op.op = .uint) (ha : op.args = .simple (.int k)) (hk : k < 6)
    (ht : op.tag ≠ []) (hl : (w.enc (wantedTag op)).length < 256) :
    emitResult w op m (.one n) junk = .illTyped := by
  rw [wantedTag_eq] at hl
  rcases emitString_cases w m ⟨op.tag, ['r','e','s','_'], tagPrefix op.op⟩ with
    ⟨_, m', n', h1, _⟩ | ⟨h1, _⟩
  · rw [emitResult, if_neg ht]
    simp only at h1
    rw [h1]
    have hb : intBytes k ≠ 8 := by
      have : k = 0 ∨ k = 1 ∨ k = 2 ∨ k = 3 ∨ k = 4 ∨ k = 5 := by omega
      rcases this with rfl | rfl | rfl | rfl | rfl | rfl <;> decide
    rcases hd with hd | hd <;>
      simp only [callPrint, hd, ha, elemBytes, printBytes, if_neg hb]
  · simp only [Request.content, List.length_cons] at h1
    omega

/-- Arrays of integers of another width are compiled but report wrong values: two 32-bit numbers
are taken for one, and memory behind the array is reported. -/
theorem C66_array_width_wrong (w : World) (hl : (w.enc (tagPrefix .arrInt ++ ['a'])).length < 256)
    (junk : Nat → Nat) (hj : ∀ i, junk i = 7) :
    ∃ m', emitResult w ⟨['a'], .arrInt, .array (.int 5) 2⟩ [] (.many [1, 2]) junk =
      .report m' ⟨.printIntArr, w.enc (tagPrefix .arrInt ++ ['a']),
        [1 + 2 * 2 ^ 32, 0x0707070707070707]⟩ := by
  rcases emitString_cases w [] ⟨['a'], ['r','e','s','_'], tagPrefix .arrInt⟩ with
    ⟨_, m', n', h1, h2, _⟩ | ⟨h1, _⟩
  · refine ⟨m', ?_⟩
    rw [emitResult, if_neg (by simp)]
    simp only at h1
    rw [h1]
    have htag : tagAt m' n' = w.enc (tagPrefix .arrInt ++ ['a']) := by
      simp only [tagAt, h2, Request.content, List.take_length]
    simp only [callPrint, htag, printFn]
    rw [if_pos (by decide)]
    have hj' : junk = fun _ => 7 := funext hj
    rw [hj']
    congr 1
  · simp only [Request.content, List.length_cons] at h1
    omega

/-- In the documented ranges of signals a panic ends all shots and an exit ends the current one. -/
theorem C66_exit_partial (signal : Nat) :
    (1 ≤ signal ∧ signal ≤ 2 ^ 31 - 1001 → endsAll (panicCode signal)) ∧
    (1 ≤ signal ∧ signal ≤ 1000 → endsShot (exitCode signal)) := by
  constructor
  · rintro ⟨h1, h2⟩
    have h3 : panicCode signal = signal + 1000 := by
      unfold panicCode
      exact Nat.mod_eq_of_lt (by omega)
    have h4 : signal + 1000 < 2 ^ 31 := by omega
    rw [endsAll, h3, signed32, if_pos h4]
    omega
  · rintro ⟨h1, h2⟩
    have h4 : exitCode signal < 2 ^ 31 := by unfold exitCode; omega
    rw [endsShot, signed32, if_pos h4]
    unfold exitCode
    omega

/-- The ranges are not checked: a panic with signal 0 ends only the current shot, a panic with a
signal near the top of the range wraps around to an exit, and an exit with a signal above 1000 ends
all shots. -/
theorem C66_exit_unchecked :
    (endsShot (panicCode 0) ∧ ¬ endsAll (panicCode 0)) ∧
    (endsShot (panicCode (2 ^ 32 - 999)) ∧ ¬ endsAll (panicCode (2 ^ 32 - 999))) ∧
    (endsAll (exitCode 1001) ∧ ¬ endsShot (exitCode 1001)) := by
  unfold endsAll endsShot
  decide

/-! ### Examples -/

/-- Codes of characters as bytes, and a hash function for which all strings collide. -/
def demo : World := ⟨fun s => s.map Char.toNat, fun _ => ['0']⟩

/-- Two strings with the same first ten characters get different variables, the first is reused. -/
example : emitMany demo []
    [⟨"abcdefghijk".toList, ['s', '_'], []⟩, ⟨"abcdefghijl".toList, ['s', '_'], []⟩,
      ⟨"abcdefghijk".toList, ['s', '_'], []⟩] =
    some ([("s_abcdefghij.0.0".toList, some [11, 97, 98, 99, 100, 101, 102, 103, 104, 105, 106, 107]),
      ("s_abcdefghij.0.1".toList, some [11, 97, 98, 99, 100, 101, 102, 103, 104, 105, 106, 108])],
      ["s_abcdefghij.0.0".toList, "s_abcdefghij.0.1".toList, "s_abcdefghij.0.0".toList]) := by
  decide +kernel

example : emitString demo [] (List.replicate 256 'x') [] [] = .tooLong := by decide +kernel

/-- An array of two numbers. -/
def arr : ROp := ⟨['a'], .arrUInt, .array (.int 6) 2⟩

example : arr.wf ∧ arr.accepts (.many [3, 2 ^ 64 - 1]) ∧ arr.wide ∧ arr.tag ≠ [] ∧
    (demo.enc (wantedTag arr)).length < 256 := by
  refine ⟨trivial, ⟨rfl, ?_⟩, rfl, by decide, by decide +kernel⟩
  decide

example : (match emitResult demo arr [] (.many [3, 2 ^ 64 - 1]) (fun _ => 9) with
    | .report _ r => decide (r.values = [3, 2 ^ 64 - 1])
    | _ => false) = true := by decide +kernel

end Verif.Results
