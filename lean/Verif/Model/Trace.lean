import Verif.Model.Strategy

/-!
# Traces of rewrites

Model of `tket/src/rewrite/trace.rs`, of `CircuitRewrite::apply` and `apply_notrace`
(`tket/src/rewrite.rs` 72-92) and of the traces left by the strategies (`tket/src/rewrite/strategy.rs` 116-144,
187-233, 265-280). Only the entry `TKET.rewrites` of the metadata of the circuit's node is modelled.
-/

namespace Tket.Trace

open Tket.Strategy

/-- Values of `serde_json`, as far as they are told apart; `num` are those for which `as_u64` succeeds. -/
inductive Json where
  | null
  | num (n : Nat)
  | arr (l : List Json)
  | other (id : Nat)

/-- The metadata entry, `none` if there is no such key. -/
abbrev Meta := Option Json

/-- `HugrMut::get_metadata_mut` of `hugr` (external): a missing key is added with value null. -/
def getMut (m : Meta) : Json := m.getD .null

/-- `enable_rewrite_tracing` (trace.rs 75-86); `feature` is `REWRITE_TRACING_ENABLED`. -/
def enable (feature : Bool) (m : Meta) : Meta :=
  if !feature then m
  else
    match getMut m with
    | .null => some (.arr [])
    | v => some v

/-- `add_rewrite_trace` (trace.rs 88-111), for a number of matches. -/
def add (feature : Bool) (k : Nat) (m : Meta) : Bool × Meta :=
  if !feature then (false, m)
  else
    match getMut m with
    | .arr l => (true, some (.arr (l ++ [.num k])))
    | v => (false, some v)

/-- `From<&Value> for RewriteTrace` (trace.rs 53-60): `as_u64().unwrap() as u16`. -/
def ofJson : Json → Option Nat
  | .num n => some (n % 2 ^ 16)
  | _ => none

/-- All elements of the iterator; `none` is a panic. -/
def readAll : List Json → Option (List Nat)
  | [] => some []
  | j :: l =>
    match ofJson j with
    | none => none
    | some n => (readAll l).map (n :: ·)

/-- `rewrite_trace` (trace.rs 113-123), collected. The outer `none` is a panic. -/
def trace (feature : Bool) (m : Meta) : Option (Option (List Nat)) :=
  if !feature then some none
  else
    match m with
    | some (.arr l) => (readAll l).map some
    | _ => some none

/-- `apply` (rewrite.rs 72-80). `succeeds`: the outcome of the external replacement. -/
def apply (feature succeeds : Bool) (m : Meta) : Bool × Meta := (succeeds, (add feature 1 m).2)

/-- `apply_notrace` (rewrite.rs 82-89). -/
def applyNotrace (succeeds : Bool) (m : Meta) : Bool × Meta := (succeeds, m)

/-- Applying rewrites one after the other; all succeed, as the strategies expect. -/
def applyAll (feature : Bool) : List Rewrite → Meta → Meta
  | [], m => m
  | _ :: l, m => applyAll feature l (apply feature true m).2

/-- The trace of the result of the greedy strategy (strategy.rs 116-144). -/
def greedyMeta (feature : Bool) (rws : List Rewrite) (m : Meta) : Meta := applyAll feature (greedy rws).applied m

/-- `composed_rewrite_count += 1` on `u16` for each rewrite (strategy.rs 210-222); `none`: panic on overflow, if
`checked`. -/
def counter (checked : Bool) : List Rewrite → Nat → Option Nat
  | [], n => some n
  | _ :: l, n =>
    if n + 1 < 2 ^ 16 then counter checked l (n + 1)
    else if checked then none else counter checked l 0

/-- The trace of one result of the exhaustive greedy strategy (strategy.rs 206-232). -/
def exhaustiveMeta (feature checked : Bool) (r : Result (List Int)) (m : Meta) : Option Meta :=
  (counter checked r.applied 0).map fun n => (add feature n (r.applied.foldl (fun m _ => (applyNotrace true m).2) m)).2

/-- The trace of one result of the exhaustive threshold strategy (strategy.rs 276-278). -/
def thresholdMeta (feature : Bool) (r : Result (List Int)) (m : Meta) : Meta := applyAll feature r.applied m

/-- What a user does with the trace of a circuit. -/
inductive Event where
  | enable
  | add (k : Nat)
  | apply (succeeds : Bool)
  | applyNotrace (succeeds : Bool)

/-- The effect of an event. -/
def step (feature : Bool) (m : Meta) : Event → Meta
  | .enable => Trace.enable feature m
  | .add k => (Trace.add feature k m).2
  | .apply s => (Trace.apply feature s m).2
  | .applyNotrace s => (Trace.applyNotrace s m).2

/-- A history of events. -/
def run (feature : Bool) : List Event → Meta → Meta
  | [], m => m
  | e :: l, m => run feature l (step feature m e)

/-! ## Specification -/

/-- The entry of an event in the trace, if tracing is on. -/
def Event.entry : Event → Option Nat
  | .add k => some k
  | .apply _ => some 1
  | _ => none

/-- The trace that a history should leave: nothing before tracing is enabled. -/
def expected : List Event → Option (List Nat)
  | [] => none
  | .enable :: l => some (l.filterMap Event.entry)
  | _ :: l => expected l

/-- Rewrites that were applied to the circuit after tracing was enabled; `add k` announces `k` of them. -/
def Event.matches : Event → Nat
  | .add k => k
  | .apply true => 1
  | _ => 0

end Tket.Trace
