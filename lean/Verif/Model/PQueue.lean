import Mathlib.Order.Basic
import Mathlib.Data.List.Basic

/-!
# Model of the optimiser's state queue

Models `/repo/tket/src/optimiser/pqueue.rs` (lines 16-214).

* Hashes (`u64`) are natural numbers; nothing in the file depends on their width.
* `DoublePriorityQueue<u64, P>` (crate `priority-queue`) is modelled by the list of its
  (key, priority) pairs.  Which of several equal-priority entries `pop_min`/`pop_max`/
  `into_sorted_iter` selects is not documented, so these are taken from a `TieBreak` oracle, and
  every operation of a history may use a different oracle.
* `FxHashMap<u64, S>` is a partial function, `FxHashSet<u64>` a list.
* `DoublePriorityQueue::with_capacity(n).capacity()` is modelled as `n` (assumption on the crate,
  the queue is only pushed to when `len < capacity`, so the capacity never changes).
* A panic is the value `none` of the outer `Option`.
-/

namespace Tket.PQueue

/-- One (hash, cost) entry of a `DoublePriorityQueue<u64, P>`. -/
abbrev Item (P : Type) := Nat × P

/-- The unspecified choices of the `priority-queue` crate: which minimal / maximal entry is
selected, and how equal costs are ordered by `into_sorted_iter`. -/
structure TieBreak (P : Type) [LinearOrder P] where
  /-- `peek_min`/`pop_min` selection -/
  min : List (Item P) → Option (Item P)
  /-- `peek_max`/`pop_max` selection -/
  max : List (Item P) → Option (Item P)
  /-- `into_sorted_iter` -/
  sort : List (Item P) → List (Item P)
  min_nil : min [] = none
  max_nil : max [] = none
  min_some : ∀ l, l ≠ [] → ∃ e, min l = some e ∧ e ∈ l ∧ ∀ e' ∈ l, e.2 ≤ e'.2
  max_some : ∀ l, l ≠ [] → ∃ e, max l = some e ∧ e ∈ l ∧ ∀ e' ∈ l, e'.2 ≤ e.2
  sort_perm : ∀ l, (sort l).Perm l
  sort_sorted : ∀ l, (sort l).Pairwise (fun a b => a.2 ≤ b.2)

/-- `struct StatePQueue` (pqueue.rs 17-24). `atb` is `all_time_best` with its capacity. -/
structure PQ (S P : Type) where
  queue : List (Item P)
  lookup : Nat → Option S
  seen : List Nat
  maxSize : Nat
  atb : Option (Nat × List (Item P))

/-- `struct Entry` (pqueue.rs 27-34). -/
structure Entry (S P : Type) where
  state : S
  cost : P
  hash : Nat
deriving DecidableEq

variable {S P : Type} [LinearOrder P]

/-- `StatePQueue::new` (pqueue.rs 38-46). -/
def PQ.new (maxSize : Nat) (nBest : Option Nat) : PQ S P :=
  { queue := [], lookup := fun _ => none, seen := [], maxSize,
    atb := nBest.map (fun n => (n, [])) }

/-- Removing a key from a `DoublePriorityQueue` (what `pop_min`/`pop_max` do with the selected
entry; keys are unique). -/
def dropKey (h : Nat) (l : List (Item P)) : List (Item P) := l.filter (fun e => e.1 ≠ h)

/-- `DoublePriorityQueue::push(key, priority)`: replaces the priority of an existing key. -/
def dpqPush (h : Nat) (c : P) (l : List (Item P)) : List (Item P) := (h, c) :: dropKey h l

/-- `DoublePriorityQueue::contains`. -/
def hasKey (h : Nat) (l : List (Item P)) : Bool := l.any (fun e => e.1 = h)

/-- `FxHashMap::remove`. -/
def lookupRemove (f : Nat → Option S) (h : Nat) : Nat → Option S :=
  fun k => if k = h then none else f k

/-- `hash_lookup.entry(hash).or_insert(state)` (pqueue.rs 88). -/
def lookupOrInsert (f : Nat → Option S) (h : Nat) (s : S) : Nat → Option S :=
  fun k => if k = h then (match f h with | some s' => some s' | none => some s) else f k

/-- `all_time_best.as_ref().map(|atb| !atb.contains(&hash)).unwrap_or_default()`
(pqueue.rs 115-119 and 134-138). -/
def PQ.notInAtb (q : PQ S P) (h : Nat) : Bool :=
  match q.atb with
  | none => false
  | some (_, l) => !hasKey h l

/-- The common body of `pop` / `pop_max` (pqueue.rs 115-125, 134-144) after the entry `e` has been
taken out of the queue. The inner `Option` is `None` of the Rust function. -/
def PQ.takeState (q : PQ S P) (e : Item P) : PQ S P × Option (Entry S P) :=
  if q.notInAtb e.1 then
    ({ q with lookup := lookupRemove q.lookup e.1 },
      (q.lookup e.1).map (fun s => ⟨s, e.2, e.1⟩))
  else
    (q, (q.lookup e.1).map (fun s => ⟨s, e.2, e.1⟩))

/-- `StatePQueue::pop` (pqueue.rs 113-126). -/
def PQ.pop (tb : TieBreak P) (q : PQ S P) : PQ S P × Option (Entry S P) :=
  match tb.min q.queue with
  | none => (q, none)
  | some e => PQ.takeState { q with queue := dropKey e.1 q.queue } e

/-- `StatePQueue::pop_max` (pqueue.rs 129-145). -/
def PQ.popMax (tb : TieBreak P) (q : PQ S P) : PQ S P × Option (Entry S P) :=
  match tb.max q.queue with
  | none => (q, none)
  | some e => PQ.takeState { q with queue := dropKey e.1 q.queue } e

/-- `StatePQueue::pop_max_all_time_best` (pqueue.rs 147-155), without the unused result. -/
def PQ.popMaxAtb (tb : TieBreak P) (q : PQ S P) : PQ S P :=
  match q.atb with
  | none => q
  | some (n, l) =>
    match tb.max l with
    | none => q
    | some e =>
      { q with
        atb := some (n, dropKey e.1 l)
        lookup := if hasKey e.1 q.queue then q.lookup else lookupRemove q.lookup e.1 }

/-- `self.all_time_best.as_mut().unwrap().push(hash, cost)` (pqueue.rs 109); the `unwrap` cannot
fail because `all_time_best` was checked at line 99. -/
def PQ.atbInsert (q : PQ S P) (h : Nat) (c : P) : PQ S P :=
  { q with atb := q.atb.map (fun p => (p.1, dpqPush h c p.2)) }

/-- `StatePQueue::push_all_time_best` (pqueue.rs 98-110). `Some(&cost) < peek_max()` is false when
`peek_max` is `None`. -/
def PQ.pushAtb (tb : TieBreak P) (q : PQ S P) (h : Nat) (c : P) : PQ S P :=
  match q.atb with
  | none => q
  | some (n, l) =>
    if l.length = n then
      match tb.max l with
      | none => q
      | some e => if c < e.2 then (q.popMaxAtb tb).atbInsert h c else q
    else q.atbInsert h c

/-- `StatePQueue::check_accepted` (pqueue.rs 182-190); `none` is the panic of
`max_cost().unwrap()`. -/
def PQ.checkAccepted (tb : TieBreak P) (q : PQ S P) (c : P) : Option Bool :=
  if q.maxSize = 0 then some false
  else if q.queue.length < q.maxSize then some true
  else (tb.max q.queue).map (fun e => decide (c < e.2))

/-- `StatePQueue::push_unchecked` (pqueue.rs 76-95). The outer `none` is a panic, the inner `none`
the refusal of the entry. -/
def PQ.pushUnchecked (tb : TieBreak P) (q : PQ S P) (s : S) (h : Nat) (c : P) :
    Option (PQ S P × Option (Entry S P)) :=
  match q.checkAccepted tb c with
  | none => none
  | some false => some (q, none)
  | some true =>
    if h ∈ q.seen then some (q, none)
    else
      let q := { q with seen := h :: q.seen }
      let q := if q.maxSize ≤ q.queue.length then (q.popMax tb).1 else q
      let q := { q with queue := dpqPush h c q.queue }
      let q := q.pushAtb tb h c
      match q.queue.find? (fun e => e.1 = h) with
      | none => none
      | some e =>
        let lk := lookupOrInsert q.lookup h s
        let q := { q with lookup := lk }
        some (q, (lk h).map (fun s' => ⟨s', e.2, h⟩))

/-- `StatePQueue::push` (pqueue.rs 67-74) where `hash`/`cost` are the results of the `State` trait
methods on the state. -/
def PQ.push (tb : TieBreak P) (q : PQ S P) (s : S) (hash : Option Nat) (cost : Option P) :
    Option (PQ S P × Option (Entry S P)) :=
  match hash, cost with
  | some h, some c => q.pushUnchecked tb s h c
  | _, _ => some (q, none)

/-- One round of `while self.queue.len() > max_size` in `truncate` (pqueue.rs 162-165), repeated
`fuel` times; `none` is the panic of `unwrap`. -/
def PQ.truncateLoop (tb : TieBreak P) (maxSize : Nat) : Nat → PQ S P → Option (PQ S P)
  | 0, q => some q
  | fuel + 1, q =>
    if maxSize < q.queue.length then
      match tb.max q.queue with
      | none => none
      | some e =>
        PQ.truncateLoop tb maxSize fuel
          { q with queue := dropKey e.1 q.queue, lookup := lookupRemove q.lookup e.1 }
    else some q

/-- `StatePQueue::truncate` (pqueue.rs 161-166). Each round removes an entry, so `len` rounds
suffice. -/
def PQ.truncate (tb : TieBreak P) (maxSize : Nat) (q : PQ S P) : Option (PQ S P) :=
  PQ.truncateLoop tb maxSize q.queue.length q

/-- The loop of `into_all_time_best` (pqueue.rs 201-204): each hash is removed from the lookup
table; a missing one panics (`none`). -/
def drainStates (f : Nat → Option S) : List (Item P) → Option (List S)
  | [] => some []
  | e :: es =>
    match f e.1 with
    | none => none
    | some s => (drainStates (lookupRemove f e.1) es).map (s :: ·)

/-- `StatePQueue::into_all_time_best` (pqueue.rs 198-206). Outer `none`: panic. Inner `none`: the
Rust `None`. -/
def PQ.intoAllTimeBest (tb : TieBreak P) (q : PQ S P) : Option (Option (List S)) :=
  match q.atb with
  | none => some none
  | some (_, l) => (drainStates q.lookup (tb.sort l)).map some

/-! ## Histories -/

/-- The calls a client can make. `push` covers `push` and `push_unchecked`. -/
inductive Op (S P : Type) where
  /-- `push`, with the results of hashing and costing the state -/
  | push (s : S) (hash : Option Nat) (cost : Option P)
  /-- `pop` -/
  | pop
  /-- `pop_max` -/
  | popMax

/-- Perform one call. Outer `none` is a panic. -/
def step (tb : TieBreak P) (q : PQ S P) : Op S P → Option (PQ S P × Option (Entry S P))
  | .push s h c => q.push tb s h c
  | .pop => some (q.pop tb)
  | .popMax => some (q.popMax tb)

/-- A history: every call comes with the tie-breaking the priority queue happened to use. -/
abbrev History (S P : Type) [LinearOrder P] := List (TieBreak P × Op S P)

/-- Run a history, collecting the entries that were accepted by `push` calls (the returned
`Some(entry)`s, oldest last). `none` is a panic. -/
def run (q : PQ S P) (acc : List (Entry S P)) :
    History S P → Option (PQ S P × List (Entry S P))
  | [] => some (q, acc)
  | (tb, op) :: rest =>
    match step tb q op with
    | none => none
    | some (q', r) =>
      match op, r with
      | .push .., some e => run q' (e :: acc) rest
      | _, _ => run q' acc rest

end Tket.PQueue
