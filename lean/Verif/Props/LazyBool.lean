import Verif.Lemmas.LazyBoolScope

/-!
# Property C47: lazily read booleans

`ReplaceBoolPass` (tket-qsystem/src/replace_bools.rs), modelled in `Model/LazyBool.lean`; the
representation of values and the linearity condition are in `Model/LazyBoolSpec.lean`.
-/

namespace Verif.LazyBool

variable {W L : Type}

/-- Replacing opaque booleans keeps what a program computes: for every machine, every program, every
entry point, every number of steps and all arguments that represent each other, either both programs
return, with the same state of the machine and with results that represent each other, or both
panic, or both need more steps. -/
theorem C47_same_values (M : Machine W L) (P : Nat → Option (Def Nat L))
    (hP : ∀ f d, P f = some d → d.Source) (n : Nat) (key : Key) (st st' : St W) (vs vs' : List Val)
    (hw : st.w = st'.w) (hv : RepL st'.heap vs vs') :
    Out.Agree Same (run M P n key st vs) (run M (lowerTable P) n key st' vs') :=
  (run_same (M := M) (fun f d h => (hP f d h).ops) n key st st' vs vs' hw hv).mono
    fun _ _ h => ⟨h.1, h.2.2⟩

/-- Results without opaque booleans are exactly the same, whatever was lazy in between. -/
theorem C47_same_results (M : Machine W L) (P : Nat → Option (Def Nat L))
    (hP : ∀ f d, P f = some d → d.Source) (n : Nat) (key : Key) (w w' : W) (H : Heap)
    (vs rs : List Val) (hc : cleanL vs = true) (hr : cleanL rs = true)
    (h : run M P n key ⟨w, []⟩ vs = .ok (⟨w', H⟩, rs)) :
    ∃ H', run M (lowerTable P) n key ⟨w, []⟩ vs = .ok (⟨w', H'⟩, rs) := by
  have := C47_same_values M P hP n key ⟨w, []⟩ ⟨w, []⟩ vs vs rfl (repL_clean _ hc)
  rw [h] at this
  revert this
  cases run M (lowerTable P) n key ⟨w, []⟩ vs with
  | ok r =>
    rintro ⟨h1, h2⟩
    obtain ⟨⟨w2, H2⟩, rs'⟩ := r
    dsimp only at h1 h2
    rw [h2.clean hr, ← h1]
    exact ⟨H2, rfl⟩
  | panic => exact False.elim
  | fuel => exact False.elim
  | stuck => exact False.elim

/-- The lowered program is linear: wherever a value may hold futures, it is read exactly once. -/
theorem C47_linear (P : Nat → Option (Def Nat L)) (hP : ∀ f d, P f = some d → d.Source) (f : Nat)
    (d : Def (Nm Nat) L) (h : lowerTable P f = some d) : d.Lin := by
  unfold lowerTable at h
  obtain ⟨d0, h1, rfl⟩ := Option.map_eq_some_iff.mp h
  exact lower_lin (hP f d0 h1)

/-- Every future is read or freed exactly once, unless it is still part of the results, in exactly
one place. -/
theorem C47_futures_used_once (M : Machine W L) (P : Nat → Option (Def Nat L))
    (hP : ∀ f d, P f = some d → d.Source) (n : Nat) (key : Key) (st st' : St W) (vs vs' : List Val)
    (ho : Owned st.heap vs) (h : run M (lowerTable P) n key st vs = .ok (st', vs')) :
    Owned st'.heap vs' := by
  have := run_bal (M := M) (P := lowerTable P) (C47_linear P hP) n key st vs
  rw [h] at this
  exact owned_bal ho this

/-- A program that is given no futures and returns none has consumed every future exactly once. -/
theorem C47_all_consumed (M : Machine W L) (P : Nat → Option (Def Nat L))
    (hP : ∀ f d, P f = some d → d.Source) (n : Nat) (key : Key) (w : W) (st' : St W)
    (vs vs' : List Val) (hc : cleanL vs = true) (hr : cleanL vs' = true)
    (h : run M (lowerTable P) n key ⟨w, []⟩ vs = .ok (st', vs')) :
    ∀ s ∈ st'.heap, s.used = 1 := by
  have := C47_futures_used_once M P hP n key ⟨w, []⟩ st' vs vs'
    (fun i => by simp [usedOf, occL_clean hc]) h
  intro s hs
  obtain ⟨i, hi, rfl⟩ := List.mem_iff_getElem.mp hs
  have h1 := this i
  rw [occL_clean hr, if_pos hi] at h1
  unfold usedOf at h1
  rw [List.getElem?_eq_getElem hi] at h1
  simpa using h1

/-! ### An example -/

/-- Outcomes come from a list. -/
def tape : Machine (List Bool) Empty where
  meas w _ := (w.headD false, w.tail)
  measReset w _ := (w.headD false, w.tail)
  prim l := nomatch l

/-- Two measurements; their conjunction decides whether the first outcome is negated; then an array
access, a loop that negates while true, and a value that is not used. -/
def sampleMain : Def Nat Empty where
  bins := [(0, false), (1, false)]
  body :=
    .op .measureReset [0] [(12, false), (2, true)] <|
    .op .measure [1] [(3, true)] <|
    .op (.bin .and) [2, 3] [(4, true)] <|
    .op .read [4] [(6, false)] <|
    .cond [6, 2]
      (.cons [(0, true)] (.ret [0]) <|
       .cons [(0, true)] (.op .not [0] [(1, true)] (.ret [1])) .nil) [(7, true)] <|
    .op (.tag 0) [7, 2] [(8, true)] <|
    .op (.const (.nat 1)) [] [(9, false)] <|
    .op (.get true 2) [8, 9] [(10, true), (11, true)] <|
    .op (.discard true) [11] [] <|
    .op .measure [12] [(15, true)] <|
    .op (.const (.o true)) [] [(13, true)] <|
    .call (.loop 1) [13] [(14, true)] <|
    .ret [10, 14, 6, 3]
  succs := []

def sampleLoop : Def Nat Empty where
  bins := [(0, true)]
  body :=
    .op .read [0] [(1, false)] <|
    .cond [1, 0]
      (.cons [(0, true)] (.op (.tag 1) [0] [(1, true)] (.ret [1])) <|
       .cons [(0, true)]
        (.op .not [0] [(1, true)] <| .op (.tag 0) [1] [(2, true)] (.ret [2])) .nil) [(2, true)] <|
    .ret [2]
  succs := []

def sampleTable : Nat → Option (Def Nat Empty)
  | 0 => some sampleMain
  | 1 => some sampleLoop
  | _ => none

theorem sample_source : ∀ f d, sampleTable f = some d → d.Source := by
  intro f d h
  match f with
  | 0 =>
    simp only [sampleTable, Option.some.injEq] at h
    subst h
    refine ⟨rfl, ?_, ?_⟩ <;> simp [sampleMain, Fresh, Body.Scoped, Cases.Scoped]
  | 1 =>
    simp only [sampleTable, Option.some.injEq] at h
    subst h
    refine ⟨rfl, ?_, ?_⟩ <;> simp [sampleLoop, Fresh, Body.Scoped, Cases.Scoped]
  | f + 2 => simp [sampleTable] at h

/-- The original program returns opaque booleans … -/
example : run tape sampleTable 4 (.fn 0) ⟨[true, true, false], []⟩ [.lin 0, .lin 1] =
    .ok (⟨[], []⟩, [.sum 1 [.o true], .o false, bool true, .o true]) := rfl

mutual
def Val.same : Val → Val → Bool
  | .o a, .o b => a == b
  | .fut a, .fut b => a == b
  | .lin a, .lin b => a == b
  | .nat a, .nat b => a == b
  | .hole, .hole => true
  | .sum t xs, .sum u ys => t == u && sameL xs ys
  | _, _ => false
def sameL : List Val → List Val → Bool
  | [], [] => true
  | x :: xs, y :: ys => x.same y && sameL xs ys
  | _, _ => false
end

/-- … and the lowered one futures or native booleans with the same values. Eleven futures were
created; the two that are left are part of the results. -/
example :
    (match run tape (lowerTable sampleTable) 4 (.fn 0) ⟨[true, true, false], []⟩ [.lin 0, .lin 1] with
    | .ok (st, vs) =>
      st.w == [] && st.heap.map Slot.used == [1, 1, 1, 1, 1, 1, 0, 1, 0, 1, 1] &&
        sameL vs [.sum 1 [.sum 1 [.fut 8]], .sum 0 [bool false], bool true, .sum 1 [.fut 6]]
    | _ => false) = true := by decide +kernel

end Verif.LazyBool
