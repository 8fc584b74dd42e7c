import Verif.Model.StateResult
import Verif.Props.Results

/-
Property C66, reports of the state of qubits.
-/
namespace Verif.Results

/-- The state of the qubits of an array is reported under the tag of the user: the runtime gets the
qubits in order, with the prefix for states before the tag; the output is the array of the input,
and no constant of the module changes. -/
theorem C66_state (w : World) (op : StateOp) (m : Globals) (qs : List Nat) (junk : Nat → Nat)
    (ht : op.tag ≠ []) (hl : (w.enc ("USER:STATE:".toList ++ op.tag)).length < 256) (hq : qs.length = op.num)
    (hb : ∀ q ∈ qs, q < 2 ^ 64) (hn : op.num < 2 ^ 32) :
    ∃ m', emitState w op.args m [.many qs] junk =
        .ok m' (w.enc ("USER:STATE:".toList ++ op.tag)) qs (.many qs) ∧
      ∀ k x, find m k = some x → find m' k = some x := by
  have hp : "USER:STATE:".toList = statePrefix := by decide
  rw [hp] at hl ⊢
  rcases emitString_cases w m ⟨op.tag, ['r','e','s','_'], statePrefix⟩ with ⟨_, m', n, h1, h2, _⟩ | ⟨h1, _⟩
  · refine ⟨m', ?_, fun k x hk => emitString_keeps h1 hk⟩
    have htag : tagAt m' n = w.enc (statePrefix ++ op.tag) := by
      simp only [tagAt, h2, Request.content, List.take_length]
    have hr := readArr_put 8 qs junk (fun q h => by have := hb q h; omega)
    simp only at h1
    rw [hq] at hr
    simp only [emitState, StateOp.args, StateOp.load, if_neg ht, h1, if_pos hn, htag, hr]
  · simp only [Request.content, List.length_cons] at h1
    omega

/-- The compiler gives an error exactly for arguments of another form, empty tags, tags that are too
long and arrays that are too long; it does not panic. -/
theorem C66_state_error_iff (w : World) (args : List TArg) (m : Globals) (qs : List Nat) (junk : Nat → Nat) :
    emitState w args m [.many qs] junk = .error ↔
      ∀ t n, args = [.string t, .nat n] →
        t = [] ∨ 256 ≤ (w.enc ("USER:STATE:".toList ++ t)).length ∨ 2 ^ 32 ≤ n := by
  have hp : "USER:STATE:".toList = statePrefix := by decide
  rw [hp]
  cases hload : StateOp.load args with
  | none =>
    constructor
    · intro _ t n he
      rw [he] at hload
      exact absurd hload (by simp [StateOp.load])
    · intro _
      simp only [emitState, hload]
  | some op =>
    have hargs : args = [.string op.tag, .nat op.num] := by
      unfold StateOp.load at hload
      split at hload
      · cases hload
        rfl
      · exact absurd hload (by simp)
    have hiff : (∀ t n, args = [.string t, .nat n] →
        t = [] ∨ 256 ≤ (w.enc (statePrefix ++ t)).length ∨ 2 ^ 32 ≤ n) ↔
        (op.tag = [] ∨ 256 ≤ (w.enc (statePrefix ++ op.tag)).length ∨ 2 ^ 32 ≤ op.num) := by
      constructor
      · exact fun h => h _ _ hargs
      · intro h t n he
        rw [hargs] at he
        simp only [List.cons.injEq, TArg.string.injEq, TArg.nat.injEq, and_true] at he
        rw [← he.1, ← he.2]
        exact h
    rw [hiff]
    simp only [emitState, hload]
    by_cases ht : op.tag = []
    · simp [ht]
    · rw [if_neg ht]
      rcases emitString_cases w m ⟨op.tag, ['r','e','s','_'], statePrefix⟩ with ⟨h0, m', n, h1, _⟩ | ⟨h0, h1⟩
      · simp only [Request.content, List.length_cons] at h0
        simp only at h1
        simp only [h1]
        by_cases hn : op.num < 2 ^ 32
        · rw [if_pos hn]
          simp only [reduceCtorEq, ht, false_or, false_iff]
          omega
        · rw [if_neg hn]
          simp only [ht, false_or, true_iff]
          omega
      · simp only [Request.content, List.length_cons] at h0
        simp only at h1
        simp only [h1, ht, false_or, true_iff]
        omega

/-- The tag of a state is never the tag of a result, and states have the same tag only if the users
gave the same tag. -/
theorem C66_state_tags (w : World) (hw : ∀ a b, w.enc a = w.enc b → a = b) (t t' : Str) (op : ROp) :
    (w.enc ("USER:STATE:".toList ++ t) = w.enc ("USER:STATE:".toList ++ t') ↔ t = t') ∧
      w.enc ("USER:STATE:".toList ++ t) ≠ w.enc (wantedTag op) := by
  have hp : "USER:STATE:".toList = statePrefix := by decide
  rw [hp]
  refine ⟨⟨fun h => List.append_cancel_left (hw _ _ h), fun h => by rw [h]⟩, fun h => ?_⟩
  have := hw _ _ h
  obtain ⟨tag, d, args⟩ := op
  cases d <;> simp [statePrefix, wantedTag, Def.typeName] at this

/-- Loading the arguments of an operation gives it back. -/
theorem C66_state_load (op : StateOp) (args : List TArg) : StateOp.load args = some op ↔ args = op.args := by
  constructor
  · intro h
    unfold StateOp.load at h
    split at h
    · cases h
      rfl
    · exact absurd h (by simp)
  · rintro rfl
    rfl

/-- Nothing compares the number of the operation with the array if the program was not validated:
with an array that is shorter the runtime reads the memory behind it. -/
theorem C66_state_unvalidated (w : World) (hl : (w.enc ("USER:STATE:".toList ++ ['a'])).length < 256)
    (junk : Nat → Nat) (hj : ∀ i, junk i = 7) :
    ∃ m', emitState w [.string ['a'], .nat 2] [] [.many [5]] junk =
      .ok m' (w.enc ("USER:STATE:".toList ++ ['a'])) [5, 0x0707070707070707] (.many [5]) := by
  have hp : "USER:STATE:".toList = statePrefix := by decide
  rw [hp] at hl ⊢
  rcases emitString_cases w [] ⟨['a'], ['r','e','s','_'], statePrefix⟩ with ⟨_, m', n, h1, h2, _⟩ | ⟨h1, _⟩
  · refine ⟨m', ?_⟩
    have htag : tagAt m' n = w.enc (statePrefix ++ ['a']) := by
      simp only [tagAt, h2, Request.content, List.take_length]
    simp only at h1
    have hr : readArr 8 2 (put ([5].flatMap (leBytes 8)) junk) = [5, 0x0707070707070707] := by
      simp [readArr, bytesAt, put, leBytes, leVal, hj]
    simp only [emitState, StateOp.load, h1, htag, hr]
    simp
  · simp only [Request.content, List.length_cons] at h1
    omega

/-! ### Examples -/

/-- Three qubits with a tag. -/
example : ∃ m', emitState demo [.string ['s'], .nat 3] [] [.many [4, 0, 2]] (fun _ => 9) =
    .ok m' (demo.enc ("USER:STATE:".toList ++ ['s'])) [4, 0, 2] (.many [4, 0, 2]) := by
  obtain ⟨m', h, _⟩ := C66_state demo ⟨['s'], 3⟩ [] [4, 0, 2] (fun _ => 9) (by decide) (by decide +kernel) rfl
    (by decide) (by decide)
  exact ⟨m', h⟩

example : emitState demo [.string [], .nat 3] [] [.many [4, 0, 2]] (fun _ => 9) = .error := by decide

example : emitState demo [.nat 3, .string ['s']] [] [.many [4, 0, 2]] (fun _ => 9) = .error := by decide

end Verif.Results
