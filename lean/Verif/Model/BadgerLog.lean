import Verif.Model.BadgerSplit
import Verif.Model.Parallel

/-!
# Model of the log of best circuits

Models `log_best` (`/repo/tket/src/optimiser/badger/log.rs` 52-70) and its calls: `backtracking.rs` 78
and 92, `badger.rs` 289 and 338 (threads with one queue), 388 and 428 (a circuit split among threads).

* The file of comma separated values is the list of costs, oldest first; times are left out.
* Whether writing and flushing the row of a number succeeds is an oracle (`Writer`); `none` is a logger
  without a file (`Default`).
* Messages to `tracing` are left out.
-/

namespace Tket.BadgerLog

open Tket.PQueue Tket.Backtracking

/-- Whether writing the row of this number succeeds. -/
abbrev Writer := Nat → Bool

variable {S C P : Type}

/-- `log_best` (log.rs 52-70): the rows after it; `none` for the panic of lines 67 and 68. -/
def logBest (w : Option Writer) (rows : List P) (c : P) : Option (List P) :=
  match w with
  | none => some rows
  | some w => if w rows.length then some (rows ++ [c]) else none

variable [LinearOrder P]

/-- What follows the log in an iteration (backtracking.rs 96-123), as in `Backtracking.loop`: the end
of the search or the next iteration. -/
def iterate (M : Space S C P) (o : Opts P) (l : Loop S C P) (pq : PQ S P) (e : Entry S P) :
    Res S P ⊕ Loop S C P :=
  let i := l.expanded.length
  let best := if e.cost < l.bestCost then e.state else l.best
  let bestCost := if e.cost < l.bestCost then e.cost else l.bestCost
  let expanded := (e.state, e.cost) :: l.expanded
  let nx := M.next e.state l.ctx
  match pushAll M nx.2 (o.tb i) 1 pq nx.1 with
  | none => .inl .panic
  | some pq =>
    let l' : Loop S C P := ⟨pq, nx.2, best, bestCost, expanded⟩
    if o.clock i then .inl (finish (o.tb i 0) l' true)
    else
      match o.maxVisited with
      | some m => if m ≤ expanded.length then .inl (finish (o.tb i 0) l' true) else .inr l'
      | none => .inr l'

/-- The loop of the search with its log (backtracking.rs 86-138). -/
def loopLog (M : Space S C P) (o : Opts P) (w : Option Writer) :
    Nat → Loop S C P → List P → Res S P × List P
  | 0, _, rows => (.outOfFuel, rows)
  | fuel + 1, l, rows =>
    match l.pq.pop (o.tb l.expanded.length 0) with
    | (pq, none) => (finish (o.tb l.expanded.length 0) { l with pq } false, rows)
    | (pq, some e) =>
      match if e.cost < l.bestCost then logBest w rows e.cost else some rows with
      | none => (.panic, rows)
      | some rows =>
        match iterate M o l pq e with
        | .inl r => (r, rows)
        | .inr l' => loopLog M o w fuel l' rows

/-- `BacktrackingOptimiser::optimise_with_options` with its log (backtracking.rs 63-139). -/
def optimiseLog (M : Space S C P) (o : Opts P) (w : Option Writer) (fuel : Nat) (start : S) (ctx : C) :
    Res S P × List P :=
  match M.cost start ctx with
  | none => (.failed, [])
  | some c =>
    match logBest w [] c with
    | none => (.panic, [])
    | some rows =>
      match (PQ.new o.queueSize o.trackNBest).push (o.tb 0 0) start (M.hash start ctx)
          (M.cost start ctx) with
      | none => (.panic, rows)
      | some (_, none) => (.failed, rows)
      | some (q, some _) => loopLog M o w fuel ⟨q, ctx, start, c, []⟩ rows

/-- States of the threads with the log; a panic of the main thread ends the run. -/
inductive LState (S P : Type) where
  | live (s : Parallel.Sys S P) (rows : List P)
  | panicked (rows : List P)

/-- Steps of the threads with the log: a better circuit is logged (badger.rs 286-290, 335-339);
everything else is a step of `Parallel.Step` that keeps the best circuit. -/
inductive LStep (cfg : Parallel.Cfg S P) (w : Option Writer) : LState S P → LState S P → Prop where
  | other (s s' : Parallel.Sys S P) (rows : List P) (h : Parallel.Step cfg s s')
      (hb : s'.best = s.best) : LStep cfg w (.live s rows) (.live s' rows)
  | best (s : Parallel.Sys S P) (rows rows' : List P) (st c rest)
      (hm : s.main = .running ∨ s.main = .draining) (hl : s.log = .newBest st c :: rest)
      (hc : c < s.best.2) (hw : logBest w rows c = some rows') :
      LStep cfg w (.live s rows) (.live { s with log := rest, best := (st, c) } rows')
  | fails (s : Parallel.Sys S P) (rows : List P) (st c rest)
      (hm : s.main = .running ∨ s.main = .draining) (hl : s.log = .newBest st c :: rest)
      (hc : c < s.best.2) (hw : logBest w rows c = none) :
      LStep cfg w (.live s rows) (.panicked rows)

/-- All states with the log that occur in some execution. -/
inductive LReachable (cfg : Parallel.Cfg S P) (w : Option Writer) : LState S P → Prop where
  | init : LReachable cfg w (.live (Parallel.Sys.init cfg) [])
  | step {s s' : LState S P} : LReachable cfg w s → LStep cfg w s s' → LReachable cfg w s'

/-- `badger_split_multithreaded` with its log (badger.rs 370-442); the threads have loggers without a
file (399-409). -/
def splitLog {O : Type} [AddCommMonoid P] (R : BadgerSplit.Rewriting O P) (opts : Nat → Opts P)
    (w : Option Writer) (fuel : Nat) (ord : Chunks.Order) (costOps : Chunks.CostOps P)
    (c : BadgerSplit.Circ O) (nIn : Nat) (outs : List Chunks.Src) :
    BadgerSplit.Outcome (BadgerSplit.Result O) × List P :=
  match logBest w [] (c.cost R.opCost) with
  | none => (.panic, [])
  | some rows =>
    match BadgerSplit.badgerSplit R opts fuel ord costOps c nIn outs with
    | .running => (.running, rows)
    | .panic => (.panic, rows)
    | .done r =>
      match
        if r.cost R.opCost < c.cost R.opCost then logBest w rows (r.cost R.opCost) else some rows with
      | none => (.panic, rows)
      | some rows => (.done r, rows)

end Tket.BadgerLog
