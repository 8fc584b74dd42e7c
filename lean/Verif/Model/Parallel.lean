import Verif.Model.PQueue

/-!
# Model of the multi-threaded Badger optimiser

Models `/repo/tket/src/optimiser/pqueue_worker.rs`, `/repo/tket/src/optimiser/badger/worker.rs` and
`badger_multithreaded` (`/repo/tket/src/optimiser/badger.rs` 228-364) as a transition system whose
executions are all interleavings of the main thread, the queue thread and the workers.

* Channels are FIFO lists; `push` and `log` are unbounded, `pop` is a rendezvous (`bounded(0)`), so
  handing work to a worker is one joint step of the queue thread and an idle worker.
* A send fails, and a receive on an empty channel fails, once the other side has stopped.
* Timeouts are steps of the environment, possible at any time if one of the two timeouts is
  configured.
* `Instant::now() - self.last_progress_log > 100ms` (pqueue_worker.rs 235) is always true, because
  `last_progress_log` is set 60 s into the past and never updated.
* Panicking rewriters/strategies are not modelled. Loggers are not modelled.
* `next s c` stands for the worker's rewriter and strategy (worker.rs 68-79): for every result, the new
  circuit, its cost `cost.add_delta(..)`, and its hash (`none` if hashing failed).
-/

namespace Tket.Parallel

open Tket.PQueue

/-- `LogMessage` (pqueue_worker.rs 50-57); of `StateCount` only `seen_count` is used for control. -/
inductive Log (S P : Type) where
  | newBest (s : S) (c : P)
  | stateCount (seen : Nat)

/-- A worker (worker.rs 59-101): blocked in `recv`, processing a circuit, or terminated. -/
inductive Worker (S P : Type) where
  | idle
  | busy (w : Entry S P)
  | done

/-- Progress of the main thread (badger.rs 282-361): main loop, draining the log, joining the
workers, returned. -/
inductive Main where
  | running
  | draining
  | joining
  | finished
deriving DecidableEq

/-- Local state of the queue thread (pqueue_worker.rs 25-46), and the shared `max_cost`. -/
structure QT (S P : Type) where
  pq : PQ S P
  minCost : Option P
  localMax : Option P
  sharedMax : Option P

/-- Parameters of a run. -/
structure Cfg (S P : Type) where
  nThreads : Nat
  cap : Nat
  maxCount : Option Nat
  /-- `timeout` or `progress_timeout` is set -/
  timeout : Bool
  next : S → P → List (S × P × Option Nat)
  init : Entry S P

/-- Global state. `received` and `announced` are history variables: all circuits the queue thread has
received, and all `NewBestState`s it has sent (latest first). -/
structure Sys (S P : Type) where
  push : List (List (Entry S P))
  q : QT S P
  running : Bool
  log : List (Log S P)
  workers : List (Worker S P)
  main : Main
  best : S × P
  received : List (Entry S P)
  announced : List (S × P)

variable {S P : Type} [LinearOrder P]

/-- `update_max_cost` (pqueue_worker.rs 251-261); `none` is the panic of line 255. -/
def QT.updateMax (tb : TieBreak P) (q : QT S P) : Option (QT S P) :=
  if !decide (q.pq.maxSize ≤ q.pq.queue.length) || q.pq.queue.isEmpty then some q
  else
    match tb.max q.pq.queue with
    | none => none
    | some e =>
      match q.localMax with
      | none => some q
      | some m =>
        if e.2 < m then some { q with localMax := some e.2, sharedMax := some e.2 } else some q

/-- `self.min_cost.is_none() || Some(&cost) < self.min_cost.as_ref()` (pqueue_worker.rs 222). -/
def QT.isNew (q : QT S P) (c : P) : Bool :=
  match q.minCost with
  | none => true
  | some m => decide (c < m)

/-- One iteration of the loop in `enqueue_circs` (pqueue_worker.rs 220-230). Returns the announcement,
if any. -/
def QT.enqueueOne (tb : TieBreak P) (q : QT S P) (w : Entry S P) :
    Option (QT S P × Option (S × P)) :=
  let q' := if q.isNew w.cost then { q with minCost := some w.cost } else q
  match q'.pq.pushUnchecked tb w.state w.hash w.cost with
  | none => none
  | some (pq, _) => some ({ q' with pq }, if q.isNew w.cost then some (w.state, w.cost) else none)

/-- The loop of `enqueue_circs` (pqueue_worker.rs 220-230); announcements oldest first. -/
def QT.enqueueAll : (tbs : Nat → TieBreak P) → QT S P → List (Entry S P) →
    Option (QT S P × List (S × P))
  | _, q, [] => some (q, [])
  | tbs, q, w :: ws =>
    match q.enqueueOne (tbs 0) w with
    | none => none
    | some (q', a) =>
      match QT.enqueueAll (fun n => tbs (n + 1)) q' ws with
      | none => none
      | some (q'', as) => some (q'', a.toList ++ as)

/-- `enqueue_circs` (pqueue_worker.rs 219-244): new queue thread state and announcements. -/
def QT.enqueue (tbs : Nat → TieBreak P) (tb : TieBreak P) (q : QT S P) (ws : List (Entry S P)) :
    Option (QT S P × List (S × P)) :=
  match q.enqueueAll tbs ws with
  | none => none
  | some (q', as) => (q'.updateMax tb).map (fun q'' => (q'', as))

/-- The circuits a worker submits after processing `w` (worker.rs 68-92), when it read the shared
maximum `mx`. -/
def workerOut (next : S → P → List (S × P × Option Nat)) (mx : Option P) (w : Entry S P) :
    List (Entry S P) :=
  (next w.state w.cost).filterMap (fun r =>
    let cut := match mx with
      | none => false
      | some m => decide (m ≤ r.2.1)
    if cut then none
    else r.2.2.map (fun h => ⟨r.1, r.2.1, h⟩))

/-- `if cost < best_circ_cost` (badger.rs 288-291 and 336-338). -/
def better (best : S × P) (s : S) (c : P) : S × P := if c < best.2 then (s, c) else best

/-- Initial state (badger.rs 240-263, pqueue_worker.rs 117-164). -/
def Sys.init (cfg : Cfg S P) : Sys S P :=
  { push := [[cfg.init]]
    q := { pq := PQ.new cfg.cap none, minCost := none, localMax := none, sharedMax := none }
    running := true
    log := []
    workers := List.replicate cfg.nThreads .idle
    main := .running
    best := (cfg.init.state, cfg.init.cost)
    received := []
    announced := [] }

/-- Sending on the push channel: lost if the queue thread has stopped. -/
def Sys.sendPush (s : Sys S P) (m : List (Entry S P)) : Sys S P :=
  if s.running then { s with push := s.push ++ [m] } else s

/-- The transitions. -/
inductive Step (cfg : Cfg S P) : Sys S P → Sys S P → Prop where
  /-- The queue thread receives circuits (pqueue_worker.rs 174-182, 185-195). -/
  | pqRecv (s : Sys S P) (msg rest tbs tb q' as) (hr : s.running = true)
      (hp : s.push = msg :: rest) (hm : msg ≠ [])
      (he : s.q.enqueue tbs tb msg = some (q', as)) :
      Step cfg s { s with
        push := rest, q := q'
        log := s.log ++ as.map (fun a => Log.newBest a.1 a.2) ++ [.stateCount q'.pq.seen.length]
        received := msg.reverse ++ s.received
        announced := as.reverse ++ s.announced }
  /-- The queue thread receives the empty message and stops (178-181, 190-193, 206-212). -/
  | pqClose (s : Sys S P) (rest) (hr : s.running = true) (hp : s.push = [] :: rest) :
      Step cfg s { s with
        push := rest, running := false, log := s.log ++ [.stateCount s.q.pq.seen.length] }
  /-- The queue thread hands its cheapest circuit to an idle worker (196-202, worker.rs 61-66). -/
  | pqSend (s : Sys S P) (i tb tb' w q') (hr : s.running = true) (hi : s.workers[i]? = some .idle)
      (hpop : (s.q.pq.pop tb).2 = some w)
      (hu : ({ s.q with pq := (s.q.pq.pop tb).1 } : QT S P).updateMax tb' = some q') :
      Step cfg s { s with q := q', workers := s.workers.set i (.busy w) }
  /-- A worker has processed its circuit and submits a non-empty result (worker.rs 68-99). -/
  | workerSend (s : Sys S P) (i w) (hi : s.workers[i]? = some (.busy w))
      (hne : workerOut cfg.next s.q.sharedMax w ≠ []) :
      Step cfg s { s.sendPush (workerOut cfg.next s.q.sharedMax w) with
        workers := s.workers.set i (if s.running then .idle else .done) }
  /-- A worker has nothing to submit: `send` returns `Ok` without sending
  (pqueue_worker.rs 83-85). -/
  | workerNone (s : Sys S P) (i w) (hi : s.workers[i]? = some (.busy w))
      (he : workerOut cfg.next s.q.sharedMax w = []) :
      Step cfg s { s with workers := s.workers.set i .idle }
  /-- A worker finds the channel closed (worker.rs 64-66). -/
  | workerStop (s : Sys S P) (i) (hi : s.workers[i]? = some .idle) (hr : s.running = false) :
      Step cfg s { s with workers := s.workers.set i .done }
  /-- Main receives a new best circuit, in the main loop or while draining (badger.rs 287-298,
  335-342). -/
  | mainBest (s : Sys S P) (st c rest) (hm : s.main = .running ∨ s.main = .draining)
      (hl : s.log = .newBest st c :: rest) :
      Step cfg s { s with log := rest, best := better s.best st c }
  /-- Main receives a state count below the limit (badger.rs 299-311), or while draining. -/
  | mainCount (s : Sys S P) (n rest) (hl : s.log = .stateCount n :: rest)
      (hm : s.main = .draining ∨ (s.main = .running ∧ ∀ m, cfg.maxCount = some m → n ≤ m)) :
      Step cfg s { s with log := rest }
  /-- Main receives a state count above the limit and closes (badger.rs 302-308). -/
  | mainLimit (s : Sys S P) (n rest m) (hl : s.log = .stateCount n :: rest)
      (hm : s.main = .running) (hc : cfg.maxCount = some m) (hn : m < n) :
      Step cfg s { s.sendPush [] with log := rest, main := .draining }
  /-- Main finds the log channel closed (badger.rs 312-316). -/
  | mainLost (s : Sys S P) (hm : s.main = .running) (hl : s.log = []) (hr : s.running = false) :
      Step cfg s { s with main := .draining }
  /-- A timeout fires (badger.rs 319-329). -/
  | mainTimeout (s : Sys S P) (hm : s.main = .running) (ht : cfg.timeout = true) :
      Step cfg s { s.sendPush [] with main := .draining }
  /-- The log is empty and closed: draining ends (badger.rs 334). -/
  | mainDrained (s : Sys S P) (hm : s.main = .draining) (hl : s.log = []) (hr : s.running = false) :
      Step cfg s { s with main := .joining }
  /-- All workers have stopped: main returns `best` (badger.rs 361-363). -/
  | mainJoin (s : Sys S P) (hm : s.main = .joining) (hw : ∀ w ∈ s.workers, w = .done) :
      Step cfg s { s with main := .finished }

/-- All states that occur in some execution. -/
inductive Reachable (cfg : Cfg S P) : Sys S P → Prop where
  | init : Reachable cfg (Sys.init cfg)
  | step {s s' : Sys S P} : Reachable cfg s → Step cfg s s' → Reachable cfg s'

end Tket.Parallel
