import Verif.Model.Ops
import Mathlib.Data.List.Dedup

/-!
# Model of the greedy commutation pass

Models `/repo/tket/src/passes/commutation.rs`. `none` is a panic or an error.

The circuit graph is represented by its qubit lines: for every qubit, the sequence of the nodes on it.
-/

namespace Tket.Commutation

/-- A command of the circuit (`ComCommand`, commutation.rs 21-30): node, operation (`none` if it is not a
`TketOp`), and the unit of every input port (`none` for ports that are not linear). `needs` lists the nodes
whose classical outputs the command uses, directly or not; the pass does not look at it. -/
structure Cmd where
  node : Nat
  op : Option TketOp
  inputs : List (Option Nat)
  needs : List Nat := []
deriving DecidableEq

/-- `ComCommand::qubits` (commutation.rs 43-50). -/
def Cmd.qubits (c : Cmd) : List Nat := c.inputs.filterMap id

/-- `ComCommand::port_of_qb` (commutation.rs 51-58), for either direction. -/
def Cmd.portOf (c : Cmd) (q : Nat) : Option Nat := c.inputs.findIdx? (fun u => u = some q)

/-- A slice: the command at every qubit (commutation.rs 61). The code uses a vector of length `n_qbs`;
here the indices are checked when the slices are filled (`loadStep`). -/
abbrev Slice := Nat → Option Cmd

/-- `add_to_slice` (commutation.rs 65-69). -/
def addToSlice (s : Slice) (c : Cmd) : Slice := fun q => if q ∈ c.qubits then some c else s q

/-- One iteration of `load_slices` (commutation.rs 77-97), for `n` qubits. -/
def loadStep (n : Nat) (st : List Slice × (Nat → Nat)) (c : Cmd) : Option (List Slice × (Nat → Nat)) :=
  match c.op with
  | none => some st
  | some _ =>
    match c.qubits with
    | [] => none
    | q :: qs =>
      if ∃ q ∈ c.qubits, n ≤ q then none
      else
        let f := (qs.map st.2).foldl max (st.2 q)
        let slices := if st.1.length ≤ f then st.1 ++ [fun _ => none] else st.1
        some (slices.modify f (fun s => addToSlice s c), fun q => if q ∈ c.qubits then f + 1 else st.2 q)

/-- `load_slices` (commutation.rs 71-100). -/
def loadSlices (n : Nat) : List Cmd → List Slice × (Nat → Nat) → Option (List Slice × (Nat → Nat))
  | [], st => some st
  | c :: cs, st => (loadStep n st c).bind (loadSlices n cs)

/-- The commutation label of a command on a qubit (commutation.rs 158-169). -/
def Cmd.label (c : Cmd) (q : Nat) : Option Pauli :=
  match c.portOf q, c.op with
  | some j, some op => commutationOnPort op.qubitCommutation j
  | _, _ => none

/-- `commutes_at_slice` (commutation.rs 143-178): the loop over the qubits of the command. -/
def commutesAt (c : Cmd) (s : Slice) : List Nat → Option (List (Nat × Cmd))
  | [] => some []
  | q :: qs =>
    match s q with
    | none => commutesAt c s qs
    | some o =>
      match c.label q, o.label q with
      | some p, some p' => if p.commutesWith p' then (commutesAt c s qs).map ((q, o) :: ·) else none
      | _, _ => none

/-- `HashMap::extend`. -/
def extend (m : Nat → Option Cmd) (l : List (Nat × Cmd)) : Nat → Option Cmd :=
  fun q => match l.find? (fun e => e.1 = q) with
    | some e => some e.2
    | none => m q

/-- `available_slice` (commutation.rs 107-139): the loop, from slice `k - 1` downwards. -/
def availGo (slices : List Slice) (c : Cmd) :
    (k : Nat) → (Nat → Option Cmd) → Option (Nat × (Nat → Option Cmd)) →
    Option (Nat × (Nat → Option Cmd))
  | 0, _, best => best
  | k + 1, prev, best =>
    let s := slices.getD k (fun _ => none)
    if ∀ q ∈ c.qubits, s q = none then availGo slices c k prev (some (k, prev))
    else if k = 0 then best
    else
      match commutesAt c s c.qubits with
      | some new => availGo slices c k (extend prev new) best
      | none => best

def available (slices : List Slice) (i : Nat) (c : Cmd) : Option (Nat × (Nat → Option Cmd)) :=
  availGo slices c (i + 1) (fun _ => none) none

/-- Insert `c` before `next`. -/
def insertBefore (next c : Cmd) : List Cmd → Option (List Cmd)
  | [] => none
  | a :: l => if a = next then some (c :: a :: l) else (insertBefore next c l).map (a :: ·)

abbrev Lines := Nat → List Cmd

/-- `PullForward::apply` (commutation.rs 233-292), for the qubits listed. -/
def pullForward (c : Cmd) (nexts : Nat → Option Cmd) : List Nat → Lines → Option Lines
  | [], l => some l
  | q :: qs, l =>
    match nexts q with
    | none => none
    | some next =>
      if next = c then pullForward c nexts qs l
      else if c ∈ l q then
        match insertBefore next c ((l q).erase c) with
        | none => none
        | some lq => pullForward c nexts qs (fun p => if p = q then lq else l p)
      else none

structure St where
  slices : List Slice
  lines : Lines
  count : Nat

/-- Moving the entries of a command between slices (commutation.rs 319-322). -/
def moveSlots (slices : List Slice) (c : Cmd) (i d : Nat) : List Slice :=
  (slices.modify i (fun s q => if q ∈ c.qubits then none else s q)).modify d (fun s => addToSlice s c)

/-- The inner loop of `apply_greedy_commutation` (commutation.rs 308-326) over the commands of slice `i`. -/
def inSlice (i : Nat) : List Cmd → St → Option St
  | [], st => some st
  | c :: cs, st =>
    match available st.slices i c with
    | none => inSlice i cs st
    | some (d, nexts) =>
      match pullForward c nexts c.qubits st.lines with
      | none => none
      | some l => inSlice i cs ⟨moveSlots st.slices c i d, l, st.count + 1⟩

/-- The commands of a slice, each once (commutation.rs 301-306). -/
def cmdsOf (n : Nat) (s : Slice) : List Cmd := (((List.range n).filterMap s).reverse.dedup).reverse

/-- The outer loop (commutation.rs 300-327), `k` slices remaining from slice `i`. -/
def overSlices (n : Nat) : (k i : Nat) → St → Option St
  | 0, _, st => some st
  | k + 1, i, st =>
    (inSlice i (cmdsOf n (st.slices.getD i (fun _ => none))) st).bind (overSlices n k (i + 1))

/-- The qubit lines of a list of commands. -/
def linesOf (cmds : List Cmd) : Lines := fun q => cmds.filter (fun c => decide (q ∈ c.qubits))

/-- `apply_greedy_commutation` (commutation.rs 295-329) on a circuit with `n` qubits. -/
def greedyCommutation (n : Nat) (cmds : List Cmd) : Option (Lines × Nat) :=
  match loadSlices n cmds ([], fun _ => 0) with
  | none => none
  | some (slices, _) =>
    (overSlices n slices.length 0 ⟨slices, linesOf cmds, 0⟩).map (fun st => (st.lines, st.count))

end Tket.Commutation
