import Verif.Model.Cost

/-!
# Model of circuit chunking

Models `/repo/tket/src/passes/chunks.rs`.

Graphs are lists of links between value ports. State-order edges, static edges and metadata are not
modelled. A connection identifier (`ChunkConnection`) is the source of a wire in the original circuit.
-/

namespace Tket.Chunks

open Tket.Cost

/-! ## Splitting -/

/-- What `split_with_cost` uses of `CircuitCost`: `default`, `+`, and the test
`new_cost.sub_cost(&max_cost).as_isize() > 0`. -/
structure CostOps (K : Type) where
  zero : K
  add : K → K → K
  over : K → Bool

/-- `usize` costs (cost.rs 160-190). -/
def natOps (max : Nat) : CostOps Nat :=
  { zero := 0, add := (· + ·), over := fun c => decide (asIsize c - asIsize max > 0) }

/-- `LexicographicCost<usize, n>` costs (cost.rs 85-158). -/
def lexOps (n : Nat) (max : List Nat) : CostOps (List Nat) :=
  { zero := List.replicate n 0, add := Cost.add,
    over := fun c => decide (major (subCost c max) > 0) }

/-- The closure given to `chunk_by` (chunks.rs 279-288), run over the commands in order: the group of
each command. -/
def groups {α K : Type} (o : CostOps K) (cost : α → K) :
    (running : K) → (group : Nat) → List α → List (α × Nat)
  | _, _, [] => []
  | running, group, a :: rest =>
    let new := o.add running (cost a)
    if o.over new then (a, group + 1) :: groups o cost o.zero (group + 1) rest
    else (a, group) :: groups o cost new group rest

/-- `Itertools::chunk_by`: maximal runs of consecutive elements with equal key. -/
def runs {α : Type} : List (α × Nat) → List (List α)
  | [] => []
  | [(a, _)] => [[a]]
  | (a, k) :: (b, l) :: rest =>
    if k = l then
      match runs ((b, l) :: rest) with
      | r :: rs => (a :: r) :: rs
      | [] => [[a]]
    else [a] :: runs ((b, l) :: rest)

/-- `split_with_cost` (chunks.rs 254-298): the commands of each chunk. -/
def splitWithCost {α K : Type} (o : CostOps K) (cost : α → K) (cmds : List α) : List (List α) :=
  runs (groups o cost o.zero 0 cmds)

/-- `split` (chunks.rs 247-249). -/
def split {α : Type} (maxSize : Nat) (cmds : List α) : List (List α) :=
  splitWithCost (natOps (maxSize - 1)) (fun _ => 1) cmds

/-! ## Circuits and chunks -/

/-- Source of a link of a circuit. It also serves as connection identifier
(`ChunkConnection(Wire)`, chunks.rs 33-34). -/
inductive Src where
  | input (i : Nat)
  | node (n p : Nat)
deriving DecidableEq

/-- Target of a link of a circuit. -/
inductive Dst where
  | output (j : Nat)
  | node (n p : Nat)
deriving DecidableEq

abbrev Graph := List (Src × Dst)

/-- `struct Chunk` (chunks.rs 38-45). -/
structure Chunk where
  circ : Graph
  inputs : List Src
  outputs : List Src
deriving DecidableEq

/-- Is the source of a link one of the given nodes? -/
def Src.inside (ns : List Nat) : Src → Bool
  | .input _ => false
  | .node n _ => ns.contains n

def Dst.inside (ns : List Nat) : Dst → Bool
  | .output _ => false
  | .node n _ => ns.contains n

/-- `subgraph.incoming_ports()` mapped to their source wires (chunks.rs 67-80): the distinct wires
from outside into the nodes. (The order chosen by `hugr` is immaterial; the model uses the order of
last occurrence.) -/
def incomingWires (g : Graph) (ns : List Nat) : List Src :=
  ((g.filter (fun l => l.2.inside ns && !l.1.inside ns)).map (·.1)).dedup

/-- `subgraph.outgoing_ports()` (chunks.rs 81-85): the distinct wires from the nodes to the outside. -/
def outgoingWires (g : Graph) (ns : List Nat) : List Src :=
  ((g.filter (fun l => l.1.inside ns && !l.2.inside ns)).map (·.1)).dedup

/-- A link of the circuit as seen inside the extracted subgraph. -/
def extractLink (ns : List Nat) (ins : List Src) (l : Src × Dst) : Option (Src × Dst) :=
  if l.2.inside ns then
    if l.1.inside ns then some l else some (.input (ins.idxOf l.1), l.2)
  else none

/-- `Chunk::extract` (chunks.rs 51-91); `SiblingSubgraph::extract_subgraph` of `hugr` is modelled as
keeping the links between the nodes, linking input `i` to the targets of the `i`-th incoming wire, and
the `j`-th outgoing wire to output `j`. Node identifiers are kept. -/
def extract (g : Graph) (ns : List Nat) : Chunk :=
  let ins := incomingWires g ns
  let outs := outgoingWires g ns
  { inputs := ins, outputs := outs,
    circ := g.filterMap (extractLink ns ins) ++
      outs.zipIdx.map (fun e => (e.1, Dst.output e.2)) }

/-! ## Reassembly -/

/-- Source of a link of the reassembled circuit. `node c n p`: the node inserted for node `n` of chunk
`c` (`insert_subgraph` gives fresh nodes). -/
inductive FSrc where
  | input (i : Nat)
  | node (c n p : Nat)
deriving DecidableEq

inductive FDst where
  | output (j : Nat)
  | node (c n p : Nat)
deriving DecidableEq

/-- `enum ConnectionTarget` (chunks.rs 211-220). -/
inductive Target where
  | insertedInput (d : FDst)
  | insertedOutput (s : FSrc)
  | transitive (w : Src)
deriving DecidableEq

/-- `HashMap::insert` on an association list. -/
def insertKey {A B : Type} [DecidableEq A] (k : A) (v : B) (m : List (A × B)) : List (A × B) :=
  (k, v) :: m.filter (fun e => e.1 ≠ k)

/-- `HashMap::get`. -/
def getKey {A B : Type} [DecidableEq A] (m : List (A × B)) (k : A) : Option B :=
  (m.find? (fun e => e.1 = k)).map (·.2)

/-- Translation of a link starting at a chunk input (chunks.rs 122-133); `none` is an out-of-bounds
panic. -/
def targetOfDst (c : Nat) (outputs : List Src) : Dst → Option Target
  | .output j => (outputs[j]?).map .transitive
  | .node n p => some (.insertedInput (.node c n p))

/-- Translation of the source of a chunk output (chunks.rs 140-152). -/
def targetOfSrc (c : Nat) (inputs : List Src) : Src → Option Target
  | .input i => (inputs[i]?).map .transitive
  | .node n p => some (.insertedOutput (.node c n p))

/-- `incoming_connections` (chunks.rs 116-135, and 171-182 for empty chunks, where every link goes to
the output). `i` is the index of the first remaining input, `m` the map built so far. -/
def incoming (c : Nat) (ch : Chunk) : (i : Nat) → List Src → List (Src × List Target) →
    Option (List (Src × List Target))
  | _, [], m => some m
  | i, w :: ws, m =>
    match ((ch.circ.filter (fun l => l.1 = .input i)).map (·.2)).mapM (targetOfDst c ch.outputs) with
    | none => none
    | some ts => incoming c ch (i + 1) ws (insertKey w ts m)

/-- `outgoing_connections` (chunks.rs 137-154, 184-196). An output without exactly one link panics. -/
def outgoing (c : Nat) (ch : Chunk) : (j : Nat) → List Src → List (Src × Target) →
    Option (List (Src × Target))
  | _, [], m => some m
  | j, w :: ws, m =>
    match (ch.circ.filter (fun l => l.2 = .output j)).map (·.1) with
    | [s] =>
      match targetOfSrc c ch.inputs s with
      | none => none
      | some t => outgoing c ch (j + 1) ws (insertKey w t m)
    | _ => none

/-- The maps of `reassemble` (chunks.rs 319-337). `targets` lists the (connection, target) pairs. -/
structure St where
  sources : List (Src × FSrc)
  targets : List (Src × FDst)
  trans : List (Src × Src)

/-- `get_merged_connection` (chunks.rs 338-343). -/
def merged (tr : List (Src × Src)) (w : Src) : Src := (getKey tr w).getD w

/-- The loop over `outgoing_connections` (chunks.rs 368-384). -/
def applyOut : List (Src × Target) → St → Option St
  | [], st => some st
  | (w, .insertedOutput s) :: r, st => applyOut r { st with sources := insertKey w s st.sources }
  | (w, .transitive m) :: r, st =>
    applyOut r { st with trans := insertKey w (merged st.trans m) st.trans }
  | (_, .insertedInput _) :: _, _ => none

/-- The inner loop over the targets of one incoming connection (chunks.rs 388-401). -/
def applyTargets (w : Src) : List Target → St → Option St
  | [], st => some st
  | .insertedInput d :: r, st => applyTargets w r { st with targets := st.targets ++ [(w, d)] }
  | .transitive _ :: r, st => applyTargets w r st
  | .insertedOutput _ :: _, _ => none

/-- The loop over `incoming_connections` (chunks.rs 385-402). -/
def applyInc : List (Src × List Target) → St → Option St
  | [], st => some st
  | (w, ts) :: r, st =>
    match applyTargets (merged st.trans w) ts st with
    | none => none
    | some st' => applyInc r st'

/-- The order in which the two hash maps of each chunk are iterated (unspecified). -/
structure Order where
  out : Nat → List (Src × Target) → List (Src × Target)
  inc : Nat → List (Src × List Target) → List (Src × List Target)
  out_perm : ∀ c l, (out c l).Perm l
  inc_perm : ∀ c l, (inc c l).Perm l

/-- One iteration of `for chunk in self.chunks` (chunks.rs 355-403). -/
def stepChunk (ord : Order) (c : Nat) (ch : Chunk) (st : St) : Option St :=
  match outgoing c ch 0 ch.outputs [], incoming c ch 0 ch.inputs [] with
  | some o, some i =>
    match applyOut (ord.out c o) st with
    | none => none
    | some st' => applyInc (ord.inc c i) st'
  | _, _ => none

def stepAll (ord : Order) : (c : Nat) → List Chunk → St → Option St
  | _, [], st => some st
  | c, ch :: r, st =>
    match stepChunk ord c ch st with
    | none => none
    | some st' => stepAll ord (c + 1) r st'

/-- Links inside the inserted chunks (`insert_subgraph`, chunks.rs 109). -/
def innerLinks (c : Nat) (g : Graph) : List (FSrc × FDst) :=
  g.filterMap (fun l =>
    match l with
    | (.node n p, .node m q) => some (.node c n p, .node c m q)
    | _ => none)

def innerAll : (c : Nat) → List Chunk → List (FSrc × FDst)
  | _, [] => []
  | c, ch :: r => innerLinks c ch.circ ++ innerAll (c + 1) r

/-- `CircuitChunks::reassemble` (chunks.rs 301-428): the links of the new circuit; `none` is a panic.
`ins`/`outs` are `input_connections` and `output_connections`. -/
def reassemble (ord : Order) (ins outs : List Src) (chunks : List Chunk) :
    Option (List (FSrc × FDst)) :=
  let sources := ins.zipIdx.foldl (fun m e => insertKey e.1 (FSrc.input e.2) m) []
  match stepAll ord 0 chunks ⟨sources, [], []⟩ with
  | none => none
  | some st =>
    let targets := st.targets ++ outs.zipIdx.map (fun e => (merged st.trans e.1, FDst.output e.2))
    some (innerAll 0 chunks ++
      st.sources.flatMap (fun e => (targets.filter (fun t => t.1 = e.1)).map (fun t => (e.2, t.2))))

end Tket.Chunks
