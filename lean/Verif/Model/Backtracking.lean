import Verif.Model.PQueue

/-!
# Model of the backtracking optimiser

Models `/repo/tket/src/optimiser/backtracking.rs` lines 62-140 and the `State` trait of
`/repo/tket/src/optimiser.rs` lines 85-113.

* The wall clock is an oracle: `clock i` says whether one of the two timeout checks
  (lines 106-117) fires after the `i`-th iteration.  Any pattern is allowed.
* The logger calls have no effect on the result and are left out.
* The tie-breaking of the priority queue is an oracle per call (`tb i j`: `j`-th queue call of
  iteration `i`).
* The unbounded `while let` is run with fuel; `Res.outOfFuel` means "still running".
-/

namespace Tket.Backtracking

open Tket.PQueue

/-- `trait State<Context>` (optimiser.rs 88-113). -/
structure Space (S C P : Type) where
  hash : S → C → Option Nat
  cost : S → C → Option P
  next : S → C → List S × C

/-- Options of `BacktrackingOptimiser` (backtracking.rs 18-38) and `OptimiserOptions::track_n_best`
(optimiser.rs 36), with the clock oracle in place of the two timeouts. -/
structure Opts (P : Type) [LinearOrder P] where
  queueSize : Nat
  clock : Nat → Bool
  maxVisited : Option Nat
  trackNBest : Option Nat
  tb : Nat → Nat → TieBreak P

/-- The local variables of the loop. `expanded` is a ghost variable recording the states popped
(and their cost), latest first; `visited_count` is its length. -/
structure Loop (S C P : Type) where
  pq : PQ S P
  ctx : C
  best : S
  bestCost : P
  expanded : List (S × P)

/-- `OptimiserResult` (optimiser.rs 49-56) with the best cost and the ghost list. -/
structure Out (S P : Type) where
  best : S
  bestCost : P
  nBest : Option (List S)
  timeoutFlag : Bool
  expanded : List (S × P)

/-- Outcome of a run. -/
inductive Res (S P : Type) where
  | outOfFuel
  | panic
  /-- the function returned `None` -/
  | failed
  | done (o : Out S P)

variable {S C P : Type} [LinearOrder P]

/-- `for new_state in new_states { pq.push(new_state, &context) }` (backtracking.rs 100-104).
`none` is a panic. -/
def pushAll (M : Space S C P) (ctx : C) (tb : Nat → TieBreak P) :
    Nat → PQ S P → List S → Option (PQ S P)
  | _, q, [] => some q
  | j, q, s :: rest =>
    match q.push (tb j) s (M.hash s ctx) (M.cost s ctx) with
    | none => none
    | some (q', _) => pushAll M ctx tb (j + 1) q' rest

/-- The end of the function (backtracking.rs 135-138). -/
def finish (tb : TieBreak P) (l : Loop S C P) (flag : Bool) : Res S P :=
  match l.pq.intoAllTimeBest tb with
  | none => .panic
  | some nBest => .done ⟨l.best, l.bestCost, nBest, flag, l.expanded⟩

/-- The `while let` loop (backtracking.rs 86-124) followed by `finish`. -/
def loop (M : Space S C P) (o : Opts P) : Nat → Loop S C P → Res S P
  | 0, _ => .outOfFuel
  | fuel + 1, l =>
    let i := l.expanded.length
    match l.pq.pop (o.tb i 0) with
    | (pq, none) => finish (o.tb i 0) { l with pq } false
    | (pq, some e) =>
      let best := if e.cost < l.bestCost then e.state else l.best
      let bestCost := if e.cost < l.bestCost then e.cost else l.bestCost
      let expanded := (e.state, e.cost) :: l.expanded
      let nx := M.next e.state l.ctx
      match pushAll M nx.2 (o.tb i) 1 pq nx.1 with
      | none => .panic
      | some pq =>
        let l' : Loop S C P := ⟨pq, nx.2, best, bestCost, expanded⟩
        if o.clock i then finish (o.tb i 0) l' true
        else
          match o.maxVisited with
          | some m => if m ≤ expanded.length then finish (o.tb i 0) l' true else loop M o fuel l'
          | none => loop M o fuel l'

/-- `BacktrackingOptimiser::optimise_with_options` (backtracking.rs 63-139). -/
def optimise (M : Space S C P) (o : Opts P) (fuel : Nat) (start : S) (ctx : C) : Res S P :=
  match M.cost start ctx with
  | none => .failed
  | some c =>
    match (PQ.new o.queueSize o.trackNBest).push (o.tb 0 0) start (M.hash start ctx)
        (M.cost start ctx) with
    | none => .panic
    | some (_, none) => .failed
    | some (q, some _) => loop M o fuel ⟨q, ctx, start, c, []⟩

end Tket.Backtracking
