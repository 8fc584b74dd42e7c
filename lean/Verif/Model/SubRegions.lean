/-
Which regions of a program are encoded as pytket circuits, and putting the circuits back: the
hierarchy of `EncodedCircuit::encode_circuits` and of `EncodedCircuit::reassemble_inplace`
(`tket/src/serialize/pytket/circuit.rs:149-328`).

Only the tree of nodes is modelled.  The links of a region that is put back are in `Model/Opaque.lean`.
-/
namespace Verif.SubRegions

/-- Sibling nodes with everything below them.  For each node: its number, whether its operation is
a dataflow parent (`OpTag::DataflowParent.is_superset`), and its children. -/
inductive Forest
  | nil
  | cons (id : Nat) (df : Bool) (kids : Forest) (rest : Forest)
deriving DecidableEq, Repr

/-- A node with everything below it. -/
structure Sub where
  id : Nat
  df : Bool
  kids : Forest
deriving DecidableEq, Repr

/-- The siblings as a list. -/
def Forest.tops : Forest → List Sub
  | .nil => []
  | .cons i d ks r => ⟨i, d, ks⟩ :: r.tops

/-- All nodes. -/
def Forest.ids : Forest → List Nat
  | .nil => []
  | .cons i _ ks r => i :: (ks.ids ++ r.ids)

/-- One of the siblings. -/
def Forest.get (k : Nat) : Forest → Option Sub
  | .nil => none
  | .cons i d ks r => if i = k then some ⟨i, d, ks⟩ else r.get k

/-- The children of a node anywhere. -/
def Forest.kidsOf (n : Nat) : Forest → Option Forest
  | .nil => none
  | .cons i _ ks r =>
    if i = n then some ks
    else match ks.kidsOf n with
      | some f => some f
      | none => r.kidsOf n

/-! ### Encoding -/

/-- `add_candidate`, `circuit.rs:291-295`: only nodes with children. -/
def addCandidates (q : List Sub) : List Sub → List Sub
  | [] => q
  | s :: ss => addCandidates (if s.kids = .nil then q else q ++ [s]) ss

/-- Result of `encode_circuits`: an error of the encoder, or the keys of the map `circuits` in the
order in which they were inserted. -/
inductive Encoded
  | ok (regions : List Nat)
  | failed (region : Nat)
  | outOfFuel
deriving DecidableEq, Repr

/-- The loop of `encode_circuits`, `circuit.rs:300-325`.  `enc r` is the result of the encoder for the
region `r`: the nodes of all its opaque subgraphs, in order, or an error.  `subs` is
`EncodeOptions::encode_subcircuits`. -/
def encodeLoop (enc : Nat → Option (List Nat)) (subs : Bool) :
    Nat → List Sub → List Nat → Encoded
  | _, [], acc => .ok acc
  | 0, _ :: _, _ => .outOfFuel
  | fuel + 1, s :: q, acc =>
    if s.df = false then
      encodeLoop enc subs fuel (addCandidates q s.kids.tops) acc
    else match enc s.id with
      | none => .failed s.id
      | some opq =>
        let q' := if subs then addCandidates q (opq.filterMap fun k => s.kids.get k) else q
        encodeLoop enc subs fuel q' (if s.id ∈ acc then acc else acc ++ [s.id])

/-- `encode_circuits` for a circuit with the given parent; there are at most as many rounds as
nodes (`C93_encoded`). -/
def encodeCircuits (enc : Nat → Option (List Nat)) (subs : Bool) (entry : Sub) : Encoded :=
  encodeLoop enc subs (entry.kids.ids.length + 1) [entry] []

/-! ### Reassembling -/

/-- What the decoder puts into a region, in order: a new node, or a node of an opaque subgraph of
the old region, moved with everything below it.

Simplified: new nodes have no children. -/
inductive Item
  | new (n : Nat)
  | old (n : Nat)
deriving DecidableEq, Repr

/-- The node. -/
def Item.id : Item → Nat
  | .new n => n
  | .old n => n

/-- The nodes that are moved. -/
def olds : List Item → List Nat
  | [] => []
  | .new _ :: is => olds is
  | .old n :: is => n :: olds is

/-- The new nodes. -/
def news : List Item → List Nat
  | [] => []
  | .new n :: is => n :: news is
  | .old _ :: is => news is

/-- The contents of the decoded region, taken from the old contents. -/
def place : List Item → Forest → Forest
  | [], _ => .nil
  | .new n :: is, ks => .cons n false .nil (place is ks)
  | .old k :: is, ks => match ks.get k with
    | some s => .cons k s.df s.kids (place is ks)
    | none => place is ks

/-- Replaces the contents of the region `r`; what was not moved is removed,
`circuit.rs:223-229`. -/
def redo (r : Nat) (is : List Item) : Forest → Forest
  | .nil => .nil
  | .cons i d ks f =>
    if i = r then .cons i d (place is ks) (redo r is f)
    else .cons i d (redo r is ks) (redo r is f)

/-- One round of `reassemble_inplace`, `circuit.rs:166-230`: `none` if the region or a node that is to
be moved is not there any more, which is a panic or an error.  (The number of a removed node may be
used again for a new node; here numbers are never reused.) -/
def round (r : Nat) (is : List Item) (t : Forest) : Option Forest :=
  match t.kidsOf r with
  | none => none
  | some ks => if (olds is).all (fun k => (ks.get k).isSome) then some (redo r is t) else none

/-- `reassemble_inplace`: the rounds in the order of the hash map. -/
def reassemble : List (Nat × List Item) → Forest → Option Forest
  | [], t => some t
  | (r, is) :: ps, t => match round r is t with
    | none => none
    | some t' => reassemble ps t'

end Verif.SubRegions
