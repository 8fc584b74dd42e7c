import Verif.Model.ResourceSpec

/-!
# Intervals on resource paths

Model of `/repo/tket/src/subcircuit/interval.rs`.  The outer `none` stands for a panic.  The
`debug_assert!`s are not modelled.
-/

namespace Verif.Resource

/-- `Interval` (`interval.rs:29-52`). -/
inductive Interval
  | singleton (node : Nat) (dir : Dir) (port : Nat)
  | span (startNode startPort endNode endPort : Nat)
  deriving DecidableEq, Repr

/-- `InvalidInterval` (`interval.rs:418-431`). -/
inductive Invalid
  | notContiguous (n : Nat)
  | notOnPath (n : Nat)
  | startAfterEnd (s e res : Nat)
  deriving DecidableEq, Repr

variable {T : Type}

/-- `Interval::new_singleton` (`interval.rs:55-70`). -/
def newSingleton (st : St) (res n : Nat) : Option Interval :=
  match st.getPort n res .inc with
  | some p => some (.singleton n .inc p)
  | none =>
    match st.getPort n res .out with
    | some p => some (.singleton n .out p)
    | none => none

/-- `Interval::new_span` (`interval.rs:72-105`). -/
def newSpan (a b : Nat × Dir × Nat) : Option Interval :=
  match a, b with
  | (n, .out, p), (m, .inc, q) => some (.span n p m q)
  | (n, .inc, p), (m, .out, q) => some (.span m q n p)
  | _, _ => none

/-- `Interval::try_new` (`interval.rs:125-163`). -/
def tryNew (st : St) (res s e : Nat) : Option (Except Invalid Interval) :=
  match st.getPos s with
  | none => some (.error (.notOnPath s))
  | some ps =>
    match st.getPos e with
    | none => some (.error (.notOnPath e))
    | some pe =>
      if ps > pe then some (.error (.startAfterEnd s e res))
      else if s = e then
        match newSingleton st res s with
        | some i => some (.ok i)
        | none => some (.error (.notOnPath s))
      else
        match st.getPort s res .out with
        | none => some (.error (.notOnPath s))
        | some p =>
          match st.getPort e res .inc with
          | none => some (.error (.notOnPath e))
          | some q => (newSpan (s, .out, p) (e, .inc, q)).map .ok

/-- `start_node` (`interval.rs:222-233`). -/
def Interval.startNode : Interval → Nat
  | .singleton n _ _ => n
  | .span s _ _ _ => s

/-- `end_node` (`interval.rs:235-245`). -/
def Interval.endNode : Interval → Nat
  | .singleton n _ _ => n
  | .span _ _ e _ => e

/-- `any_port` (`interval.rs:369-380`) and `resource_id` (`interval.rs:165-172`). -/
def Interval.resourceId (st : St) : Interval → Option Nat
  | .singleton n d p => (st.getRes n d p).join
  | .span s p _ _ => (st.getRes s .out p).join

/-- The extremum used by `boundary_port` (`interval.rs:209-213`). -/
def Interval.extremum (d : Dir) : Interval → Nat × Dir × Nat
  | .singleton n d' p => (n, d', p)
  | .span s p e q =>
    match d with
    | .inc => (s, .out, p)
    | .out => (e, .inc, q)

/-- `boundary_port` (`interval.rs:199-220`); the outer `none` is a panic. -/
def Interval.boundary (st : St) (d : Dir) (i : Interval) : Option (Option (Nat × Nat)) :=
  match i.extremum d with
  | (n, d', p) =>
    match (st.getRes n d' p).join with
    | none => none
    | some res => some ((st.getPort n res d).map fun p => (n, p))

/-- `Ordering`, `position_in_interval` (`interval.rs:347-367`). -/
def Interval.order (st : St) (i : Interval) (pos : Nat) : Option Ordering :=
  match st.getPos i.startNode, st.getPos i.endNode with
  | some s, some e => if pos < s then some .lt else if pos > e then some .gt else some .eq
  | _, _ => none

/-- `ensure_direction_resource_port` (`interval.rs:402-418`): the outer `none` is a panic. -/
def ensureDir (st : St) (n : Nat) (d' : Dir) (p : Nat) (d : Dir) : Option (Option (Nat × Dir × Nat)) :=
  if d = d' then some (some (n, d', p))
  else
    match (st.getRes n d' p).join with
    | none => none
    | some res => some ((st.getPort n res d).map fun q => (n, d, q))

/-- The extremum which stays when the interval grows (`interval.rs:330-340`). -/
def Interval.keep (st : St) (dir : Dir) : Interval → Option (Nat × Dir × Nat)
  | .span s p e q =>
    match dir with
    | .inc => some (e, .inc, q)
    | .out => some (s, .out, p)
  | .singleton n d' p =>
    match ensureDir st n d' p dir with
    | some (some x) => some x
    | _ => none

/-- `add_node_unchecked` (`interval.rs:300-345`). -/
def addNode (st : St) (i : Interval) (n : Nat) : Option (Option Dir × Interval) :=
  match st.getPos n with
  | none => none
  | some pos =>
    match i.resourceId st with
    | none => none
    | some res =>
      match i.order st pos with
      | none => none
      | some .eq => some (none, i)
      | some o =>
        let dir := match o with
          | .lt => Dir.inc
          | _ => Dir.out
        match st.getPort n res dir.reverse with
        | none => none
        | some p =>
          match i.keep st dir with
          | none => none
          | some x => (newSpan (n, dir.reverse, p) x).map fun j => (some dir, j)

/-- `try_extend` (`interval.rs:247-298`). -/
def tryExtend (r : Region T) (st : St) (i : Interval) (n : Nat) :
    Option (Except Invalid (Option Dir × Interval)) :=
  match st.getPos n with
  | none => some (.error (.notOnPath n))
  | some pos =>
    match i.order st pos with
    | none => none
    | some .eq => some (.ok (none, i))
    | some .lt =>
      match i.boundary st .inc with
      | none => none
      | some none => some (.error (.notContiguous n))
      | some (some (m, p)) =>
        match r.source m p with
        | none => some (.error (.notContiguous n))
        | some (prev, _) =>
          if prev ≠ n then some (.error (.notContiguous n)) else (addNode st i n).map .ok
    | some .gt =>
      match i.boundary st .out with
      | none => none
      | some none => some (.error (.notContiguous n))
      | some (some (m, p)) =>
        match r.target m p with
        | none => some (.error (.notContiguous n))
        | some (next, _) =>
          if next ≠ n then some (.error (.notContiguous n)) else (addNode st i n).map .ok

/-- `nodes_in_interval` (`interval.rs:433-446`): the nodes of the resource path up to the end node;
`none` is a panic or a lack of fuel. -/
def takeTo (e : Nat) : List Nat → List Nat
  | [] => []
  | x :: xs => if x = e then [x] else x :: takeTo e xs

def nodesIn (r : Region T) (st : St) (fuel : Nat) (i : Interval) : Option (List Nat) :=
  match i.resourceId st with
  | none => none
  | some res => (pathIter r st res .out fuel i.startNode).map (takeTo i.endNode)

/-! ### Specification -/

/-- The two ends of an interval, as ports. -/
def Interval.first : Interval → Port
  | .singleton n d p => ⟨n, d, p⟩
  | .span s p _ _ => ⟨s, .out, p⟩

def Interval.last : Interval → Port
  | .singleton n d p => ⟨n, d, p⟩
  | .span _ _ e q => ⟨e, .inc, q⟩

/-- An interval in the sense of the documentation: a part of a resource path, of one node or of
several. -/
def Interval.Good (r : Region T) (th : Nat → Nat → Nat → Prop) : Interval → Prop
  | .singleton n d p => r.Linear ⟨n, d, p⟩
  | .span s p e q => r.Linear ⟨s, .out, p⟩ ∧
      Relation.ReflTransGen (Link r th) ⟨s, .out, p⟩ ⟨e, .inc, q⟩

/-- The interval contains the node: some port of the node lies between the ends. -/
def Interval.Covers (r : Region T) (th : Nat → Nat → Nat → Prop) (i : Interval) (n : Nat) : Prop :=
  ∃ P : Port, P.node = n ∧ Relation.ReflTransGen (Link r th) i.first P ∧
    Relation.ReflTransGen (Link r th) P i.last

/-- The node is on the resource path of the interval. -/
def Interval.OnPath (r : Region T) (th : Nat → Nat → Nat → Prop) (i : Interval) (n : Nat) : Prop :=
  ∃ P : Port, P.node = n ∧ Relation.EqvGen (Link r th) i.first P

/-- The node comes right before the interval on its resource path: a wire leads from the node to
the first node of the interval. -/
def Interval.Before (r : Region T) (th : Nat → Nat → Nat → Prop) (i : Interval) (n : Nat) : Prop :=
  ∃ p q, Link r th ⟨n, .out, p⟩ ⟨i.startNode, .inc, q⟩ ∧
    Relation.EqvGen (Link r th) ⟨i.startNode, .inc, q⟩ i.first

/-- The node comes right after the interval on its resource path. -/
def Interval.After (r : Region T) (th : Nat → Nat → Nat → Prop) (i : Interval) (n : Nat) : Prop :=
  ∃ p q, Link r th ⟨i.endNode, .out, p⟩ ⟨n, .inc, q⟩ ∧
    Relation.EqvGen (Link r th) ⟨i.endNode, .out, p⟩ i.first

end Verif.Resource
